import Verif.Profile.Thm
/-
Sample and GetBlockId of /repo/bin/fble-perf-profile.c: C57.

SIMPLIFIED: names and paths are lists of characters; the count of a line is a natural number (an int
in the code); the parsing of a line into count and path is not modelled.
-/
namespace Verif.Profile.Perf

abbrev Name := List Char

/-- The profile so far: the names of its blocks, and the profiler operations made (newest first). -/
structure PS where
  names : List Name
  ops : List Op

/-- A new profile has the root block only: FbleNewProfile, profile.c:520-535. -/
def start : PS := ⟨["<root>".toList], []⟩

/-- GetBlockId, fble-perf-profile.c:73-87, and entering that block, fble-perf-profile.c:118-121. -/
def enterName (x : Name) (s : PS) : PS :=
  if x ∈ s.names then ⟨s.names, .enter (s.names.idxOf x) :: s.ops⟩
  else ⟨s.names ++ [x], .enter s.names.length :: .addBlock :: s.ops⟩

/-- The path up to the next semicolon, and what follows it if there is one (strchr,
fble-perf-profile.c:103-106). -/
def cut : List Char → Name × Option (List Char)
  | [] => ([], none)
  | c :: cs => if c = ';' then ([], some cs) else (c :: (cut cs).1, (cut cs).2)

theorem cut_lt : ∀ {s : List Char} {r}, (cut s).2 = some r → r.length < s.length := by
  intro s
  induction s with
  | nil => intro r h; simp [cut] at h
  | cons c cs ih =>
    intro r h
    unfold cut at h
    split at h
    · simp at h; subst h; simp
    · have := ih h; simp; omega

/-- Sample, fble-perf-profile.c:101-132. -/
def sample (squashes : List Name) (count : Nat) (p : List Char) (s : PS) : PS :=
  let x := (cut p).1
  let squash := squashes.contains x
  let s := if squash then s else enterName x s
  let s := match _h : (cut p).2 with
    | none => { s with ops := .sample count :: s.ops }
    | some rest => sample squashes count rest s
  if squash then s else { s with ops := .exit :: s.ops }
termination_by p.length
decreasing_by exact cut_lt _h

/-- The loop over the lines of the report, fble-perf-profile.c:196-214. -/
def report (squashes : List Name) : List (Nat × List Char) → PS → PS
  | [], s => s
  | (n, p) :: ls, s => report squashes ls (sample squashes n p s)

/-! ### Specification -/

/-- The functions on a path, outermost first: what is between semicolons. -/
def frames (p : List Char) : List Name := p.splitOn ';'

/-- The functions that are not squashed. -/
def shown (squashes : List Name) (p : List Char) : List Name := (frames p).filter fun x => !squashes.contains x

/-- The total of the lines that satisfy `P`. -/
def total (P : List Char → Bool) (ls : List (Nat × List Char)) : Nat :=
  ((ls.filter fun l => P l.2).map (·.1)).sum

/-- The lines with `x` anywhere on the path. -/
def timeOf (squashes : List Name) (x : Name) : List (Nat × List Char) → Nat :=
  total fun p => (shown squashes p).contains x

/-- The lines with `x` at the end of the path. -/
def selfOf (squashes : List Name) (x : Name) : List (Nat × List Char) → Nat :=
  total fun p => (shown squashes p).getLast? == some x

/-! ### Proofs -/

theorem frames_cut (p : List Char) : frames p = (cut p).1 :: (match (cut p).2 with
    | none => []
    | some r => frames r) := by
  induction p with
  | nil => simp [frames, cut]
  | cons c cs ih =>
    simp only [frames, List.splitOn] at ih ⊢
    rw [List.splitOnP_cons_eq_if_modifyHead]
    unfold cut
    by_cases h : c = ';'
    · simp [h]
    · simp only [beq_iff_eq, h, if_false]
      rw [ih]
      rfl

structure OK (s : PS) : Prop where
  legal : Legal 0 s.ops
  len : blocksAfter 0 s.ops = s.names.length
  nd : s.names.Nodup
  pos : s.names[0]? = some "<root>".toList

theorem append_get {xs ys : List Name} {b : Nat} {x : Name} (h : xs[b]? = some x) : (xs ++ ys)[b]? = some x := by
  have := (List.getElem?_eq_some_iff.mp h).1
  rw [List.getElem?_append_left this]
  exact h

/-- Two indices of a name in a list without repetition. -/
theorem nodup_get {xs : List Name} (h : xs.Nodup) {i j : Nat} {x : Name} (hi : xs[i]? = some x) (hj : xs[j]? = some x) : i = j := by
  obtain ⟨a, ha⟩ := List.getElem?_eq_some_iff.mp hi
  obtain ⟨b, hb⟩ := List.getElem?_eq_some_iff.mp hj
  exact (List.getElem_inj h).mp (ha.trans hb.symm)

/-- Entering a function. -/
theorem enter_spec (x : Name) {s : PS} (ok : OK s) :
    ∃ b, OK (enterName x s) ∧ (enterName x s).names[b]? = some x ∧
      (∃ more, (enterName x s).names = s.names ++ more ∧ ∀ y ∈ more, y = x) ∧
      (∃ cur, stackAfter (enterName x s).ops = ⟨b, [(cur, b)]⟩ :: stackAfter s.ops) ∧
      (∀ b, selfTime b (enterName x s).ops = selfTime b s.ops) ∧
      (∀ b, blockTime b (enterName x s).ops = blockTime b s.ops) ∧
      allTime (enterName x s).ops = allTime s.ops := by
  have hne := stack_ne s.ops ok.legal
  cases hs : stackAfter s.ops with
  | nil => exact absurd hs hne
  | cons l ls =>
  unfold enterName
  split
  · rename_i hm
    have hlt : s.names.idxOf x < s.names.length := List.idxOf_lt_length_iff.mpr hm
    have ⟨t1, t2, t3, t4⟩ := times_enter (op := .enter (s.names.idxOf x)) (b := s.names.idxOf x) (.inl rfl) s.ops
    refine ⟨s.names.idxOf x, ⟨⟨ok.legal, by rw [ok.len]; exact hlt⟩, ok.len, ok.nd, ok.pos⟩, ?_, ⟨[], by simp, by simp⟩,
      ⟨l.cur, by simp [stackAfter, hs]⟩, t1, t2, t4⟩
    rw [List.getElem?_eq_getElem hlt, List.getElem_idxOf]
  · rename_i hm
    have ⟨t1, t2, t3, t4⟩ := times_enter (op := .enter s.names.length) (b := s.names.length) (.inl rfl) (.addBlock :: s.ops)
    have ⟨u1, u2, u3, u4⟩ := times_enter (op := .addBlock) (b := 0) (.inr (.inr (.inr rfl))) s.ops
    have hl : blocksAfter 0 (.enter s.names.length :: .addBlock :: s.ops) = s.names.length + 1 := by
      simp only [blocksAfter, ok.len]
    refine ⟨s.names.length, ⟨⟨⟨ok.legal, trivial⟩, ?_⟩, by rw [hl]; simp, ?_, append_get ok.pos⟩, by simp,
      ⟨[x], rfl, by simp⟩, ⟨l.cur, by simp [stackAfter, hs]⟩, fun b => (t1 b).trans (u1 b), fun b => (t2 b).trans (u2 b),
      t4.trans u4⟩
    · show s.names.length < blocksAfter 0 s.ops + 1
      rw [ok.len]; omega
    · refine List.nodup_append.mpr ⟨ok.nd, by simp, ?_⟩
      intro a ha b hb
      simp at hb
      subst hb
      rintro rfl
      exact hm ha

structure Sampled (sq : List Name) (c : Nat) (p : List Char) (s s' : PS) : Prop where
  ok : OK s'
  names : ∃ more, s'.names = s.names ++ more ∧ ∀ x ∈ more, x ∈ shown sq p
  all : ∀ x ∈ shown sq p, x ∈ s'.names
  stack : stackAfter s'.ops = stackAfter s.ops
  time : ∀ b, ((BlockOn (stackAfter s.ops) b ∨ ∃ x ∈ shown sq p, s'.names[b]? = some x) →
      blockTime b s'.ops = blockTime b s.ops + c) ∧
    (¬ (BlockOn (stackAfter s.ops) b ∨ ∃ x ∈ shown sq p, s'.names[b]? = some x) →
      blockTime b s'.ops = blockTime b s.ops)
  self : ∀ b, ((match (shown sq p).getLast? with
        | some x => s'.names[b]? = some x
        | none => running (stackAfter s.ops) = some b) → selfTime b s'.ops = selfTime b s.ops + c) ∧
    (¬ (match (shown sq p).getLast? with
        | some x => s'.names[b]? = some x
        | none => running (stackAfter s.ops) = some b) → selfTime b s'.ops = selfTime b s.ops)
  tot : allTime s'.ops = allTime s.ops + c

theorem shown_cut (sq : List Name) (p : List Char) : shown sq p =
    (if sq.contains (cut p).1 then [] else [(cut p).1]) ++ (match (cut p).2 with
    | none => []
    | some r => shown sq r) := by
  rw [shown, frames_cut, List.filter_cons]
  cases h : (cut p).2 <;> cases hc : sq.contains (cut p).1 <;> simp [shown]

theorem sample_op {s : PS} (ok : OK s) (c : Nat) :
    OK { s with ops := .sample c :: s.ops } ∧ stackAfter (.sample c :: s.ops) = stackAfter s.ops ∧
    (∀ b, (BlockOn (stackAfter s.ops) b → blockTime b (.sample c :: s.ops) = blockTime b s.ops + c) ∧
      (¬ BlockOn (stackAfter s.ops) b → blockTime b (.sample c :: s.ops) = blockTime b s.ops)) ∧
    (∀ b, (running (stackAfter s.ops) = some b → selfTime b (.sample c :: s.ops) = selfTime b s.ops + c) ∧
      (¬ running (stackAfter s.ops) = some b → selfTime b (.sample c :: s.ops) = selfTime b s.ops)) ∧
    allTime (.sample c :: s.ops) = allTime s.ops + c := by
  refine ⟨⟨⟨ok.legal, trivial⟩, ok.len, ok.nd, ok.pos⟩, by simp only [stackAfter], fun b => ⟨fun h => ?_, fun h => ?_⟩,
    fun b => ⟨fun h => ?_, fun h => ?_⟩, rfl⟩
  · rw [blockTime, tally_cons, if_pos h]; rfl
  · rw [blockTime, tally_cons, if_neg h]; rfl
  · rw [selfTime, tally_cons, if_pos h]; rfl
  · rw [selfTime, tally_cons, if_neg h]; rfl

/-- The part of Sample between entering and leaving. -/
def inner (sq : List Name) (c : Nat) (p : List Char) (s : PS) : PS :=
  match (cut p).2 with
  | none => { s with ops := .sample c :: s.ops }
  | some rest => sample sq c rest s

theorem sample_eq (sq : List Name) (c : Nat) (p : List Char) (s : PS) : sample sq c p s =
    if sq.contains (cut p).1 then inner sq c p s
    else { inner sq c p (enterName (cut p).1 s) with ops := .exit :: (inner sq c p (enterName (cut p).1 s)).ops } := by
  rw [sample]
  unfold inner
  cases h : sq.contains (cut p).1 <;> simp only [Bool.false_eq_true, if_false, if_true] <;> (split <;> simp_all)

/-- The functions on the rest of a path. -/
def tailShown (sq : List Name) (p : List Char) : List Name := match (cut p).2 with
  | none => []
  | some r => shown sq r

theorem sample_spec (sq : List Name) (c : Nat) : ∀ (n : Nat) (p : List Char), p.length = n → ∀ {s : PS}, OK s →
    Sampled sq c p s (sample sq c p s) := by
  intro n
  induction n using Nat.strongRecOn with
  | ind n ih =>
  intro p hn s ok
  -- the rest of the path
  have hinner : ∀ {s : PS}, OK s →
      OK (inner sq c p s) ∧ (∃ more, (inner sq c p s).names = s.names ++ more ∧ ∀ x ∈ more, x ∈ tailShown sq p) ∧
      (∀ x ∈ tailShown sq p, x ∈ (inner sq c p s).names) ∧
      stackAfter (inner sq c p s).ops = stackAfter s.ops ∧
      (∀ b, ((BlockOn (stackAfter s.ops) b ∨ ∃ x ∈ tailShown sq p, (inner sq c p s).names[b]? = some x) →
          blockTime b (inner sq c p s).ops = blockTime b s.ops + c) ∧
        (¬ (BlockOn (stackAfter s.ops) b ∨ ∃ x ∈ tailShown sq p, (inner sq c p s).names[b]? = some x) →
          blockTime b (inner sq c p s).ops = blockTime b s.ops)) ∧
      (∀ b, ((match (tailShown sq p).getLast? with
            | some x => (inner sq c p s).names[b]? = some x
            | none => running (stackAfter s.ops) = some b) → selfTime b (inner sq c p s).ops = selfTime b s.ops + c) ∧
        (¬ (match (tailShown sq p).getLast? with
            | some x => (inner sq c p s).names[b]? = some x
            | none => running (stackAfter s.ops) = some b) → selfTime b (inner sq c p s).ops = selfTime b s.ops)) ∧
      allTime (inner sq c p s).ops = allTime s.ops + c := by
    intro s ok
    unfold inner tailShown
    cases h : (cut p).2 with
    | none =>
      obtain ⟨h1, h2, h3, h4, h5⟩ := sample_op ok c
      exact ⟨h1, ⟨[], by simp, by simp⟩, by simp, h2, by simpa using h3, by simpa using h4, h5⟩
    | some r =>
      have S := ih r.length (by rw [← hn]; exact cut_lt h) r rfl ok
      exact ⟨S.ok, S.names, S.all, S.stack, S.time, S.self, S.tot⟩
  have hsh : shown sq p = (if sq.contains (cut p).1 then [] else [(cut p).1]) ++ tailShown sq p := shown_cut sq p
  rw [sample_eq]
  cases hc : sq.contains (cut p).1 with
  | true =>
    simp only [if_true]
    simp only [hc, if_true, List.nil_append] at hsh
    obtain ⟨i1, i2, i3, i4, i5, i6, i7⟩ := hinner ok
    exact ⟨i1, by rw [hsh]; exact i2, by rw [hsh]; exact i3, i4, by rw [hsh]; exact i5, by rw [hsh]; exact i6, i7⟩
  | false =>
    simp only [Bool.false_eq_true, if_false]
    simp only [hc, Bool.false_eq_true, if_false, List.cons_append, List.nil_append] at hsh
    obtain ⟨b0, e1, e2, ⟨mo, e3, e3'⟩, ⟨cur, e4⟩, e5, e6, e7⟩ := enter_spec (cut p).1 ok
    obtain ⟨i1, ⟨mo2, i2, i2'⟩, i3, i4, i5, i6, i7⟩ := hinner e1
    generalize inner sq c p (enterName (cut p).1 s) = s1 at i1 i2 i3 i4 i5 i6 i7 ⊢
    have hb0 : s1.names[b0]? = some (cut p).1 := by rw [i2]; exact append_get e2
    rw [e4] at i4 i5 i6
    have hne := stack_ne s.ops ok.legal
    have hst : stackAfter (.exit :: s1.ops) = stackAfter s.ops := by simp [stackAfter, i4]
    have ⟨t1, t2, t3, t4⟩ := times_enter (op := .exit) (b := 0) (.inr (.inr (.inl rfl))) s1.ops
    have hon : ∀ b, BlockOn (⟨b0, [(cur, b0)]⟩ :: stackAfter s.ops) b ↔ b = b0 ∨ BlockOn (stackAfter s.ops) b := by
      intro b
      simp only [BlockOn, OnStack, List.mem_cons, exists_eq_or_imp, List.not_mem_nil, or_false, Prod.mk.injEq]
      constructor
      · rintro ⟨c', h | h⟩
        · exact .inl h.2
        · exact .inr ⟨c', h⟩
      · rintro (h | ⟨c', h⟩)
        · exact ⟨cur, .inl ⟨rfl, h⟩⟩
        · exact ⟨c', .inr h⟩
    have hb : ∀ b, s1.names[b]? = some (cut p).1 ↔ b = b0 := by
      intro b
      constructor
      · intro h; exact nodup_get i1.nd h hb0
      · rintro rfl; exact hb0
    have hiff : ∀ b, (BlockOn (stackAfter s.ops) b ∨ ∃ x ∈ shown sq p, s1.names[b]? = some x) ↔
        (BlockOn (⟨b0, [(cur, b0)]⟩ :: stackAfter s.ops) b ∨ ∃ x ∈ tailShown sq p, s1.names[b]? = some x) := by
      intro b
      rw [hon, hsh]
      simp only [List.mem_cons, exists_eq_or_imp, hb]
      tauto
    refine ⟨⟨⟨i1.legal, ?_⟩, i1.len, i1.nd, i1.pos⟩, ?_, ?_, hst, fun b => ?_, fun b => ?_, ?_⟩
    · show 1 < (stackAfter s1.ops).length
      rw [i4]
      have := List.length_pos_iff.mpr hne
      simp only [List.length_cons]; omega
    · refine ⟨mo ++ mo2, by rw [i2, e3, List.append_assoc], fun x hx => ?_⟩
      rw [hsh]
      rcases List.mem_append.mp hx with h | h
      · rw [e3' x h]; simp
      · exact List.mem_cons_of_mem _ (i2' x h)
    · intro x hx
      rw [hsh] at hx
      rcases List.mem_cons.mp hx with rfl | h
      · exact List.mem_of_getElem? hb0
      · exact i3 x h
    · show (_ → blockTime b (.exit :: s1.ops) = _) ∧ (_ → blockTime b (.exit :: s1.ops) = _)
      have h1 : (BlockOn (stackAfter s.ops) b ∨ ∃ x ∈ shown sq p, ({ s1 with ops := .exit :: s1.ops } : PS).names[b]? = some x) ↔
        _ := hiff b
      rw [h1, t2, ← e6]
      exact i5 b
    · show (_ → selfTime b (.exit :: s1.ops) = _) ∧ (_ → selfTime b (.exit :: s1.ops) = _)
      rw [t1, ← e5, hsh]
      have h6 := i6 b
      cases htl : tailShown sq p with
      | nil =>
        rw [htl] at h6
        simp only [List.getLast?_nil, running, List.head?_cons, Option.map_some, Option.some.injEq] at h6
        simp only [List.getLast?_singleton, hb]
        rw [eq_comm (a := b)]
        exact h6
      | cons y ys =>
        rw [htl] at h6
        rw [List.getLast?_cons_cons]
        have : ((y :: ys).getLast?).isSome = true := by simp
        cases hg : (y :: ys).getLast? with
        | none => rw [hg] at this; simp at this
        | some z => rw [hg] at h6; exact h6
    · show allTime (.exit :: s1.ops) = _
      rw [t4, i7, e7]

/-- What is on the path. -/
theorem report_spec (sq : List Name) : ∀ (ls : List (Nat × List Char)) {s : PS}, OK s → stackAfter s.ops = [⟨0, []⟩] →
    let s' := report sq ls s
    OK s' ∧ stackAfter s'.ops = [⟨0, []⟩] ∧ (∃ more, s'.names = s.names ++ more ∧ ∀ x ∈ more, ∃ l ∈ ls, x ∈ shown sq l.2) ∧
    (∀ l ∈ ls, ∀ x ∈ shown sq l.2, x ∈ s'.names) ∧
    (∀ b x, s'.names[b]? = some x → blockTime b s'.ops = blockTime b s.ops + timeOf sq x ls) ∧
    (∀ b x, s'.names[b]? = some x → b ≠ 0 → selfTime b s'.ops = selfTime b s.ops + selfOf sq x ls) ∧
    allTime s'.ops = allTime s.ops + (ls.map (·.1)).sum := by
  intro ls
  induction ls with
  | nil =>
    intro s ok hst
    exact ⟨ok, hst, ⟨[], by simp [report], by simp⟩, by simp, by simp [report, timeOf, total], by simp [report, selfOf, total],
      by simp [report]⟩
  | cons l ls ih =>
    obtain ⟨c, p⟩ := l
    intro s ok hst
    have S := sample_spec sq c p.length p rfl ok
    obtain ⟨i1, i2, ⟨mo, i3, i3'⟩, i4, i5, i6, i7⟩ := ih S.ok (S.stack.trans hst)
    obtain ⟨mo0, n1, n2⟩ := S.names
    have hr : report sq ((c, p) :: ls) s = report sq ls (sample sq c p s) := rfl
    simp only [hr]
    refine ⟨i1, i2, ⟨mo0 ++ mo, by rw [i3, n1, List.append_assoc], ?_⟩, ?_, ?_, ?_, ?_⟩
    · intro x hx
      rcases List.mem_append.mp hx with h | h
      · exact ⟨(c, p), by simp, n2 x h⟩
      · obtain ⟨l, hl, h⟩ := i3' x h
        exact ⟨l, by simp [hl], h⟩
    · intro l hl x hx
      rcases List.mem_cons.mp hl with rfl | hl
      · rw [i3]; exact List.mem_append_left _ (S.all x hx)
      · exact i4 l hl x hx
    · intro b x hb
      rw [i5 b x hb]
      have hno : ¬ BlockOn (stackAfter s.ops) b := by
        rw [hst]; rintro ⟨c, l, hl, he⟩; simp at hl; subst hl; cases he
      by_cases hx : x ∈ shown sq p
      · have hmem := S.all x hx
        obtain ⟨j, hj⟩ := List.getElem?_of_mem hmem
        have hj' : (report sq ls (sample sq c p s)).names[j]? = some x := by rw [i3]; exact append_get hj
        have hbj := nodup_get i1.nd hb hj'
        subst hbj
        rw [(S.time b).1 (.inr ⟨x, hx, hj⟩)]
        have : (shown sq p).contains x = true := by simpa using hx
        simp only [timeOf, total, List.filter_cons, this, if_true, List.map_cons, List.sum_cons]
        omega
      · rw [(S.time b).2]
        · have : (shown sq p).contains x = false := by simpa using hx
          simp only [timeOf, total, List.filter_cons, this, Bool.false_eq_true, if_false]
        · rintro (h | ⟨y, hy, h⟩)
          · exact hno h
          · have : (report sq ls (sample sq c p s)).names[b]? = some y := by rw [i3]; exact append_get h
            rw [hb] at this
            exact hx (by simp at this; rw [this]; exact hy)
    · intro b x hb h0
      rw [i6 b x hb h0]
      by_cases hx : (shown sq p).getLast? = some x
      · have hmem := S.all x (List.mem_of_getLast? hx)
        obtain ⟨j, hj⟩ := List.getElem?_of_mem hmem
        have hj' : (report sq ls (sample sq c p s)).names[j]? = some x := by rw [i3]; exact append_get hj
        have hbj := nodup_get i1.nd hb hj'
        subst hbj
        rw [(S.self b).1 (by rw [hx]; exact hj)]
        have : ((shown sq p).getLast? == some x) = true := by simpa using hx
        simp only [selfOf, total, List.filter_cons, this, if_true, List.map_cons, List.sum_cons]
        omega
      · have : ((shown sq p).getLast? == some x) = false := by simpa using hx
        rw [(S.self b).2]
        · simp only [selfOf, total, List.filter_cons, this, Bool.false_eq_true, if_false]
        · cases hg : (shown sq p).getLast? with
          | none =>
            simp only [hst, running, List.head?_cons, Option.map_some, Option.some.injEq]
            exact fun h => h0 h.symm
          | some y =>
            intro h
            have : (report sq ls (sample sq c p s)).names[b]? = some y := by rw [i3]; exact append_get h
            rw [hb] at this
            rw [hg] at hx
            exact hx this.symm
    · rw [i7, S.tot]
      simp only [List.map_cons, List.sum_cons]
      omega

/-- **C57**.  For every perf report (lines with a count and a path) and every list of squashed
functions, the profile has exactly one block for each function that is not squashed (besides the
root).  The time of a function is the total of the lines it is on, counting a line once however often it occurs
there; its self time is the total of the lines that end with it after squashing; and the time of the
root is the total of all lines (plus that of lines with a function called `<root>`). -/
theorem C57_perf (sq : List Name) (ls : List (Nat × List Char)) :
    let r := report sq ls start
    let s := run 0 r.ops
    s.ub = false ∧ r.names.Nodup ∧
    (∀ x, x ∈ r.names ↔ x = "<root>".toList ∨ ∃ l ∈ ls, x ∈ shown sq l.2) ∧
    (∀ b x, r.names[b]? = some x → b ≠ 0 → s.time b = timeOf sq x ls ∧ s.self b = selfOf sq x ls) ∧
    s.time 0 = (ls.map (·.1)).sum + timeOf sq "<root>".toList ls := by
  intro r s
  have ok0 : OK start := ⟨trivial, rfl, by simp [start], rfl⟩
  obtain ⟨i1, i2, ⟨mo, i3, i3'⟩, i4, i5, i6, i7⟩ := report_spec sq ls ok0 rfl
  have inv := run_inv i1.legal
  refine ⟨inv.nub, i1.nd, fun x => ⟨fun hx => ?_, ?_⟩, fun b x hb h0 => ⟨?_, ?_⟩, ?_⟩
  · have hx : x ∈ (report sq ls start).names := hx
    rw [i3] at hx
    rcases List.mem_append.mp hx with h | h
    · left; simpa [start] using h
    · right; exact i3' x h
  · rintro (rfl | ⟨l, hl, h⟩)
    · exact List.mem_of_getElem? i1.pos
    · exact i4 l hl x h
  · show (run 0 _).time b = _
    rw [inv.tim, if_neg h0, i5 b x hb]
    show 0 + _ + 0 = _
    omega
  · show (run 0 _).self b = _
    rw [inv.slf, i6 b x hb h0]
    show 0 + _ = _
    omega
  · show (run 0 _).time 0 = _
    rw [inv.tim, if_pos rfl, i5 0 _ i1.pos, i7]
    show 0 + _ + (0 + _) = _
    omega

/-- A function that occurs twice on a path, and a squashed one. -/
example : let r := report ["c".toList] [(3, "a;b;a".toList), (4, "a;c".toList)] start
    (run 0 r.ops).time 1 = 7 ∧ (run 0 r.ops).self 1 = 7 ∧ (run 0 r.ops).time 2 = 3 ∧ (run 0 r.ops).time 0 = 7 ∧
    r.names = ["<root>".toList, "a".toList, "b".toList] := by
  decide +kernel

end Verif.Profile.Perf
