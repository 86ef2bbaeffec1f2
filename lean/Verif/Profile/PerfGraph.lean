import Verif.Profile.PerfMain
/-
C93: the counts and the call graph of the profile that fble-perf-profile makes, and the theorems about the program.
-/
namespace Verif.Profile.Perf
open Support.GetLine (getLine text firstLine)
open Args (Arg Env Recognised effects)

/-- The calls on a path that starts in `w`: from each function to the next. -/
def arcs (w : Name) (xs : List Name) : List (Name × Name) := (w :: xs).zip xs

theorem arcs_cons (w x : Name) (xs : List Name) : arcs w (x :: xs) = (w, x) :: arcs x xs := rfl

/-- Entering a function, for the counts. -/
theorem enter_counts (x : Name) {s : PS} (ok : OK s) {cur : Nat} (hr : running (stackAfter s.ops) = some cur) {b : Nat} (hb : (enterName x s).names[b]? = some x) :
    stackAfter (enterName x s).ops = ⟨b, [(cur, b)]⟩ :: stackAfter s.ops ∧
    (∀ b', entries b' (enterName x s).ops = entries b' s.ops + if b' = b then 1 else 0) ∧
    (∀ c b', callsMade c b' (enterName x s).ops = callsMade c b' s.ops + if b' = b ∧ c = cur then 1 else 0) ∧
    (∀ c b', callTime c b' (enterName x s).ops = callTime c b' s.ops) := by
  cases hs : stackAfter s.ops with
  | nil => rw [hs] at hr; cases hr
  | cons l ls =>
  rw [hs] at hr
  simp only [running, List.head?_cons, Option.map_some, Option.some.injEq] at hr
  subst hr
  have hnd := (enter_spec x ok).choose_spec.1.nd
  unfold enterName at hb hnd ⊢
  split
  · rename_i hm
    rw [if_pos hm] at hb hnd
    have hlt : s.names.idxOf x < s.names.length := List.idxOf_lt_length_iff.mpr hm
    have hbe : b = s.names.idxOf x := nodup_get hnd hb (by rw [List.getElem?_eq_getElem hlt, List.getElem_idxOf])
    subst hbe
    exact ⟨by simp [stackAfter, hs], fun b' => entries_enter (.inl rfl) b' s.ops, fun c b' => callsMade_enter (.inl rfl) c b' s.ops hs,
      (times_enter (op := .enter (s.names.idxOf x)) (b := s.names.idxOf x) (.inl rfl) s.ops).2.2.1⟩
  · rename_i hm
    rw [if_neg hm] at hb hnd
    have hbe : b = s.names.length := nodup_get hnd hb (by simp)
    subst hbe
    obtain ⟨o1, o2⟩ := counts_other (op := .addBlock) (fun b => ⟨nofun, nofun⟩) s.ops
    have hs' : stackAfter (.addBlock :: s.ops) = l :: ls := by simp [stackAfter, hs]
    refine ⟨by simp [stackAfter, hs], fun b' => ?_, fun c b' => ?_, fun c b' => ?_⟩
    · rw [entries_enter (.inl rfl), o1]
    · rw [callsMade_enter (.inl rfl) c b' _ hs', o2]
    · rw [(times_enter (op := .enter s.names.length) (b := s.names.length) (.inl rfl) _).2.2.1,
        (times_enter (op := .addBlock) (b := 0) (.inr (.inr (.inr rfl))) _).2.2.1]

/-- What a line adds to the counts, if `w` is running; `N` are the names there are at the end. -/
structure Adds (N : List Name) (c : Nat) (w : Name) (xs : List Name) (s s' : PS) : Prop where
  entry : ∀ b y, N[b]? = some y → entries b s'.ops = entries b s.ops + xs.count y
  call : ∀ a b x y, N[a]? = some x → N[b]? = some y → callsMade a b s'.ops = callsMade a b s.ops + (arcs w xs).count (x, y)
  time : ∀ a b x y, N[a]? = some x → N[b]? = some y →
    ((OnStack (stackAfter s.ops) (a, b) ∨ (x, y) ∈ arcs w xs) → callTime a b s'.ops = callTime a b s.ops + c) ∧
    (¬ (OnStack (stackAfter s.ops) (a, b) ∨ (x, y) ∈ arcs w xs) → callTime a b s'.ops = callTime a b s.ops)

theorem sample_adds (sq : List Name) (c : Nat) : ∀ (n : Nat) (p : List Char), p.length = n → ∀ {s : PS}, OK s → ∀ {cur w}, running (stackAfter s.ops) = some cur →
    s.names[cur]? = some w → ∀ {N : List Name}, N.Nodup → (∃ more, N = (sample sq c p s).names ++ more) → Adds N c w (shown sq p) s (sample sq c p s) := by
  intro n
  induction n using Nat.strongRecOn with
  | ind n ih =>
  intro p hn s ok cur w hcur hw N hN hmore
  have hinner : ∀ {s : PS}, OK s → ∀ {cur w}, running (stackAfter s.ops) = some cur → s.names[cur]? = some w →
      ((∃ more, N = (inner sq c p s).names ++ more) → Adds N c w (tailShown sq p) s (inner sq c p s)) ∧ OK (inner sq c p s) ∧ (∃ more, (inner sq c p s).names = s.names ++ more) ∧
      stackAfter (inner sq c p s).ops = stackAfter s.ops := by
    intro s ok cur w hcur hw
    unfold inner tailShown
    cases h : (cut p).2 with
    | none =>
      obtain ⟨o1, o2⟩ := counts_other (op := .sample c) (fun b => ⟨nofun, nofun⟩) s.ops
      obtain ⟨k1, k2, _⟩ := sample_op ok c
      refine ⟨fun _ => ⟨fun b y _ => o1 b, fun a b x y _ _ => o2 a b, fun a b x y _ _ => ⟨fun h => ?_, fun h => ?_⟩⟩, k1, ⟨[], by simp⟩, k2⟩
      · simp only [arcs, List.zip_nil_right, List.not_mem_nil, or_false] at h
        show callTime a b (.sample c :: s.ops) = _
        rw [callTime, tally_cons, if_pos h]; rfl
      · simp only [arcs, List.zip_nil_right, List.not_mem_nil, or_false] at h
        show callTime a b (.sample c :: s.ops) = _
        rw [callTime, tally_cons, if_neg h]; rfl
    | some r =>
      have hlt : r.length < n := by rw [← hn]; exact cut_lt h
      have S := sample_spec sq c r.length r rfl ok
      obtain ⟨mo, m1, _⟩ := S.names
      exact ⟨fun hm => ih r.length hlt r rfl ok hcur hw hN hm, S.ok, ⟨mo, m1⟩, S.stack⟩
  have hsh : shown sq p = (if sq.contains (cut p).1 then [] else [(cut p).1]) ++ tailShown sq p := shown_cut sq p
  rw [sample_eq] at hmore ⊢
  cases hc : sq.contains (cut p).1 with
  | true =>
    simp only [hc, if_true] at hmore ⊢
    simp only [hc, if_true, List.nil_append] at hsh
    rw [hsh]
    exact (hinner ok hcur hw).1 hmore
  | false =>
    simp only [hc, Bool.false_eq_true, if_false] at hmore ⊢
    simp only [hc, Bool.false_eq_true, if_false, List.cons_append, List.nil_append] at hsh
    obtain ⟨b0, e1, e2, ⟨mo, e3, _⟩, _, _, _, _⟩ := enter_spec (cut p).1 ok
    obtain ⟨n1, n2, n3, n4⟩ := enter_counts (cut p).1 ok hcur e2
    obtain ⟨hA, i1, ⟨mo2, i2⟩, i3⟩ := hinner e1 (cur := b0) (w := (cut p).1) (by rw [n1]; rfl) e2
    obtain ⟨a1, a2, a3⟩ := hA hmore
    generalize inner sq c p (enterName (cut p).1 s) = s1 at a1 a2 a3 i1 i2 i3 hmore ⊢
    obtain ⟨mo3, hmo⟩ := hmore
    have hb0 : N[b0]? = some (cut p).1 := by rw [hmo]; exact append_get (by rw [i2]; exact append_get e2)
    have hw1 : N[cur]? = some w := by rw [hmo]; exact append_get (by rw [i2]; exact append_get (by rw [e3]; exact append_get hw))
    have hb : ∀ {b y}, N[b]? = some y → (b = b0 ↔ y = (cut p).1) := by
      intro b y h
      constructor
      · rintro rfl; rw [hb0] at h; cases h; rfl
      · rintro rfl; exact nodup_get hN h hb0
    have hcu : ∀ {a x}, N[a]? = some x → (a = cur ↔ x = w) := by
      intro a x h
      constructor
      · rintro rfl; rw [hw1] at h; cases h; rfl
      · rintro rfl; exact nodup_get hN h hw1
    obtain ⟨o1, o2⟩ := counts_other (op := .exit) (fun b => ⟨nofun, nofun⟩) s1.ops
    have t3 := (times_enter (op := .exit) (b := 0) (.inr (.inr (.inl rfl))) s1.ops).2.2.1
    rw [hsh]
    refine ⟨fun b y h => ?_, fun a b x y hx hy => ?_, fun a b x y hx hy => ?_⟩
    · show entries b (.exit :: s1.ops) = _
      rw [o1, a1 b y h, n2, List.count_cons]
      have := hb h
      by_cases hy : y = (cut p).1
      · simp [hy, this.mpr hy]; omega
      · rw [if_neg (fun h => hy (this.mp h)), if_neg (fun h => hy (Eq.symm (beq_iff_eq.mp h)))]; omega
    · show callsMade a b (.exit :: s1.ops) = _
      rw [o2, a2 a b x y hx hy, n3, arcs_cons, List.count_cons]
      have k : (b = b0 ∧ a = cur) ↔ (w, (cut p).1) = (x, y) := by
        rw [hb hy, hcu hx, Prod.mk.injEq]
        constructor
        · rintro ⟨rfl, rfl⟩; exact ⟨rfl, rfl⟩
        · rintro ⟨rfl, rfl⟩; exact ⟨rfl, rfl⟩
      by_cases hk : (w, (cut p).1) = (x, y)
      · rw [if_pos (k.mpr hk), if_pos (beq_iff_eq.mpr hk)]; omega
      · rw [if_neg (fun h => hk (k.mp h)), if_neg (fun h => hk (beq_iff_eq.mp h))]; omega
    · show (_ → callTime a b (.exit :: s1.ops) = _) ∧ (_ → callTime a b (.exit :: s1.ops) = _)
      have h3 := a3 a b x y hx hy
      rw [n1, n4] at h3
      have k : (OnStack (⟨b0, [(cur, b0)]⟩ :: stackAfter s.ops) (a, b) ∨ (x, y) ∈ arcs (cut p).1 (tailShown sq p)) ↔
          (OnStack (stackAfter s.ops) (a, b) ∨ (x, y) ∈ arcs w ((cut p).1 :: tailShown sq p)) := by
        rw [arcs_cons]
        simp only [OnStack, List.mem_cons, exists_eq_or_imp, List.not_mem_nil, or_false, Prod.mk.injEq, hb hy, hcu hx]
        constructor
        · rintro ((⟨rfl, rfl⟩ | h) | h)
          · exact .inr (.inl ⟨rfl, rfl⟩)
          · exact .inl h
          · exact .inr (.inr h)
        · rintro (h | ⟨rfl, rfl⟩ | h)
          · exact .inl (.inr h)
          · exact .inl (.inl ⟨rfl, rfl⟩)
          · exact .inr h
      rw [k] at h3
      rw [t3]
      exact h3

/-! ### Specification -/

/-- How often `x` is on the paths. -/
def countOf (sq : List Name) (x : Name) (ls : List (Nat × List Char)) : Nat := (ls.map fun l => (shown sq l.2).count x).sum

/-- How often `x` calls `y` on the paths; the root calls the first function. -/
def callsOf (sq : List Name) (x y : Name) (ls : List (Nat × List Char)) : Nat := (ls.map fun l => (arcs "<root>".toList (shown sq l.2)).count (x, y)).sum

/-- The total of the lines on whose path `x` calls `y`. -/
def callTimeOf (sq : List Name) (x y : Name) : List (Nat × List Char) → Nat := total fun p => (arcs "<root>".toList (shown sq p)).contains (x, y)

theorem report_adds (sq : List Name) {N : List Name} (hN : N.Nodup) : ∀ (ls : List (Nat × List Char)) {s : PS}, OK s → stackAfter s.ops = [⟨0, []⟩] →
    (∃ more, N = (report sq ls s).names ++ more) →
    (∀ b y, N[b]? = some y → entries b (report sq ls s).ops = entries b s.ops + countOf sq y ls) ∧
    (∀ a b x y, N[a]? = some x → N[b]? = some y →
      callsMade a b (report sq ls s).ops = callsMade a b s.ops + callsOf sq x y ls ∧ callTime a b (report sq ls s).ops = callTime a b s.ops + callTimeOf sq x y ls) := by
  intro ls
  induction ls with
  | nil => intro s ok hst _; exact ⟨fun b y _ => by simp [report, countOf], fun a b x y _ _ => by simp [report, callsOf, callTimeOf, total]⟩
  | cons l ls ih =>
    obtain ⟨c, p⟩ := l
    intro s ok hst hmore
    have S := sample_spec sq c p.length p rfl ok
    obtain ⟨r1, _, ⟨mo, r3, _⟩, _, _, _, _⟩ := report_spec sq ls S.ok (S.stack.trans hst)
    have hr : report sq ((c, p) :: ls) s = report sq ls (sample sq c p s) := rfl
    rw [hr] at hmore ⊢
    obtain ⟨mo2, hm⟩ := hmore
    have A := sample_adds sq c p.length p rfl ok (cur := 0) (w := "<root>".toList) (by rw [hst]; rfl) ok.pos hN
      ⟨mo ++ mo2, by rw [hm, r3, List.append_assoc]⟩
    obtain ⟨i1, i2⟩ := ih S.ok (S.stack.trans hst) ⟨mo2, hm⟩
    refine ⟨fun b y h => ?_, fun a b x y hx hy => ⟨?_, ?_⟩⟩
    · rw [i1 b y h, A.entry b y h]
      simp only [countOf, List.map_cons, List.sum_cons]
      omega
    · rw [(i2 a b x y hx hy).1, A.call a b x y hx hy]
      simp only [callsOf, List.map_cons, List.sum_cons]
      omega
    · rw [(i2 a b x y hx hy).2]
      have hno : ¬ OnStack (stackAfter s.ops) (a, b) := by
        rw [hst]; rintro ⟨l, hl, he⟩; simp at hl; subst hl; cases he
      by_cases hk : (x, y) ∈ arcs "<root>".toList (shown sq p)
      · rw [(A.time a b x y hx hy).1 (.inr hk)]
        have : (arcs "<root>".toList (shown sq p)).contains (x, y) = true := by simpa using hk
        simp only [callTimeOf, total, List.filter_cons, this, if_true, List.map_cons, List.sum_cons]
        omega
      · rw [(A.time a b x y hx hy).2 (by rintro (h | h); exacts [hno h, hk h])]
        have : (arcs "<root>".toList (shown sq p)).contains (x, y) = false := by simpa using hk
        simp only [callTimeOf, total, List.filter_cons, this, Bool.false_eq_true, if_false]

/-- What a report says about samples, with the functions `sq` left out of the paths.  A block other than the root is a function. -/
structure Describes (sq : List Name) (ls : List (Nat × List Char)) (name : Nat → Name) (R : Report) : Prop where
  /-- There is one block for each function, besides the root; all were executed. -/
  distinct : ∀ a < R.blocks, ∀ b < R.blocks, name a = name b → a = b
  root : 0 < R.blocks ∧ name 0 = "<root>".toList
  functions : ∀ x, (∃ b < R.blocks, name b = x) ↔ x = "<root>".toList ∨ ∃ l ∈ ls, x ∈ shown sq l.2
  covered : R.covered = R.blocks
  total : R.total = (ls.map (·.1)).sum
  /-- By overall time: how often a function is on a path, the lines it is on, and those it ends. -/
  calls : (R.calls.map (·.id)).Perm (List.range R.blocks)
  longest : R.calls.Pairwise fun x y => y.time < x.time ∨ (y.time = x.time ∧ x.id < y.id)
  line : ∀ l ∈ R.calls, l.id ≠ 0 → l.count = countOf sq (name l.id) ls ∧ l.time = timeOf sq (name l.id) ls ∧ l.self = selfOf sq (name l.id) ls
  rootLine : ∀ l ∈ R.calls, l.id = 0 → l.count = 1 + countOf sq (name 0) ls ∧ l.time = (ls.map (·.1)).sum + timeOf sq (name 0) ls
  /-- By self time. -/
  selfs : (R.selfs.map (·.1)).Perm (List.range R.blocks)
  busiest : R.selfs.Pairwise fun x y => y.2 < x.2 ∨ (y.2 = x.2 ∧ x.1 < y.1)
  selfLine : ∀ l ∈ R.selfs, l.1 ≠ 0 → l.2 = selfOf sq (name l.1) ls
  /-- The call graph, in the order of overall time: who calls a function and who it calls, how often, and with the total of the lines with that call. -/
  graph : R.graph.map (·.block) = R.calls
  callees : ∀ e ∈ R.graph, (e.callees.map (·.id)).Nodup ∧
    (∀ d ∈ e.callees, d.id < R.blocks ∧ d.count = callsOf sq (name e.block.id) (name d.id) ls ∧ d.time = callTimeOf sq (name e.block.id) (name d.id) ls) ∧
    ∀ b < R.blocks, (∃ d ∈ e.callees, d.id = b) ↔ 0 < callsOf sq (name e.block.id) (name b) ls
  callers : ∀ e ∈ R.graph, (e.callers.map (·.id)).Nodup ∧
    (∀ d ∈ e.callers, d.id < R.blocks ∧ d.count = callsOf sq (name d.id) (name e.block.id) ls ∧ d.time = callTimeOf sq (name d.id) (name e.block.id) ls) ∧
    ∀ a < R.blocks, (∃ d ∈ e.callers, d.id = a) ↔ 0 < callsOf sq (name a) (name e.block.id) ls

theorem le_sum_mem {α : Type} {f : α → Nat} {a : α} : ∀ {xs : List α}, a ∈ xs → f a ≤ (xs.map f).sum := by
  intro xs
  induction xs with
  | nil => intro h; cases h
  | cons x xs ih =>
    intro h
    rw [List.map_cons, List.sum_cons]
    rcases List.mem_cons.mp h with rfl | h
    · omega
    · have := ih h; omega

theorem describes (sq : List Name) (ls : List (Nat × List Char)) {scratch : List Data → List Data} (hs : ∀ xs, (scratch xs).length = xs.length) :
    Describes sq ls (fun id => (report sq ls start).names.getD id []) (Verif.Profile.report scratch (run 0 (report sq ls start).ops)) := by
  have ok0 : OK start := ⟨trivial, rfl, by simp [start], rfl⟩
  obtain ⟨i1, i2, ⟨mo, i3, i3'⟩, i4, i5, i6, i7⟩ := report_spec sq ls ok0 rfl
  obtain ⟨j1, j2⟩ := report_adds sq i1.nd ls ok0 rfl ⟨[], by simp⟩
  obtain ⟨⟨c1, c2, c3, _⟩, ⟨d1, d2, d3⟩, ⟨e1, e2, e3⟩, f1, f2⟩ := C90_report i1.legal hs
  obtain ⟨_, k2, _, k4⟩ := C90_blocks i1.legal hs
  generalize hR : Verif.Profile.report scratch (run 0 (report sq ls start).ops) = R at *
  have hlen : R.blocks = (report sq ls start).names.length := c1.trans i1.len
  have hget : ∀ {b}, b < R.blocks → (report sq ls start).names[b]? = some ((report sq ls start).names.getD b []) := by
    intro b hb
    rw [hlen] at hb
    rw [List.getD_eq_getElem?_getD, List.getElem?_eq_getElem hb]; rfl
  have hentry : ∀ {b}, b < R.blocks → entries b (report sq ls start).ops = countOf sq ((report sq ls start).names.getD b []) ls := by
    intro b hb
    rw [j1 b _ (hget hb)]
    show 0 + _ = _
    omega
  have hcall : ∀ {a b}, a < R.blocks → b < R.blocks → callsMade a b (report sq ls start).ops = callsOf sq ((report sq ls start).names.getD a []) ((report sq ls start).names.getD b []) ls ∧
      callTime a b (report sq ls start).ops = callTimeOf sq ((report sq ls start).names.getD a []) ((report sq ls start).names.getD b []) ls := by
    intro a b ha hb
    obtain ⟨h1, h2⟩ := j2 a b _ _ (hget ha) (hget hb)
    refine ⟨h1.trans ?_, h2.trans ?_⟩
    · show 0 + _ = _
      omega
    · show 0 + _ = _
      omega
  have h0 : 0 < R.blocks := by rw [hlen]; exact (List.getElem?_eq_some_iff.mp i1.pos).1
  have hn0 : (report sq ls start).names.getD 0 [] = "<root>".toList := by
    have := hget h0
    rw [i1.pos] at this
    exact (Option.some.inj this).symm
  have hmem : ∀ x, (∃ b < R.blocks, (report sq ls start).names.getD b [] = x) ↔ x ∈ (report sq ls start).names := by
    intro x
    constructor
    · rintro ⟨b, hb, rfl⟩; exact List.mem_of_getElem? (hget hb)
    · intro h
      obtain ⟨j, hj⟩ := List.getElem?_of_mem h
      have hlt := (List.getElem?_eq_some_iff.mp hj).1
      refine ⟨j, by rw [hlen]; exact hlt, ?_⟩
      have := hget (b := j) (by rw [hlen]; exact hlt)
      rw [hj] at this
      exact (Option.some.inj this).symm
  have hfun : ∀ x, x ∈ (report sq ls start).names ↔ x = "<root>".toList ∨ ∃ l ∈ ls, x ∈ shown sq l.2 := by
    intro x
    refine ⟨fun hx => ?_, ?_⟩
    · rw [i3] at hx
      rcases List.mem_append.mp hx with h | h
      · left; simpa [start] using h
      · right; exact i3' x h
    · rintro (rfl | ⟨l, hl, h⟩)
      · exact List.mem_of_getElem? i1.pos
      · exact i4 l hl x h
  have hpos : ∀ {b}, b < R.blocks → b = 0 ∨ 0 < entries b (report sq ls start).ops := by
    intro b hb
    rw [hentry hb]
    rcases (hfun _).mp ((hmem _).mp ⟨b, hb, rfl⟩) with h | ⟨l, hl, h⟩
    · left
      exact nodup_get i1.nd (hget hb) (by rw [h]; exact i1.pos)
    · right
      have h1 : 0 < (shown sq l.2).count ((report sq ls start).names.getD b []) := List.count_pos_iff.mpr h
      have h2 : (shown sq l.2).count ((report sq ls start).names.getD b []) ≤ countOf sq ((report sq ls start).names.getD b []) ls :=
        le_sum_mem (f := fun l => (shown sq l.2).count ((report sq ls start).names.getD b [])) hl
      omega
  have hself : ∀ {b}, b < R.blocks → b ≠ 0 → selfTime b (report sq ls start).ops = selfOf sq ((report sq ls start).names.getD b []) ls := by
    intro b hb hb0
    rw [i6 b _ (hget hb) hb0]
    show 0 + _ = _
    omega
  have htime : ∀ {b}, b < R.blocks → blockTime b (report sq ls start).ops = timeOf sq ((report sq ls start).names.getD b []) ls := by
    intro b hb
    rw [i5 b _ (hget hb)]
    show 0 + _ = _
    omega
  have htot : allTime (report sq ls start).ops = (ls.map (·.1)).sum := by
    rw [i7]
    show 0 + _ = _
    omega
  have hid : ∀ l ∈ R.selfs, l.1 < R.blocks := fun l hl => List.mem_range.mp (e1.mem_iff.mp (List.mem_map_of_mem hl))
  have hg : R.graph.map (·.block) = R.calls := by
    rw [f1, List.filter_eq_self]
    intro l hl
    have h1 := (d2 l hl).1
    rcases hpos (k2 l hl) with h | h
    · rw [h1, if_pos h]; simp
    · rw [h1]; simp; omega
  refine ⟨fun a ha b hb h => nodup_get i1.nd (hget ha) (by rw [h]; exact hget hb), ⟨h0, hn0⟩, fun x => (hmem x).trans (hfun x), ?_, c2.trans htot, d1, d3, fun l hl hl0 => ?_, fun l hl hl0 => ?_,
    e1, e3, fun l hl hl0 => ?_, hg, fun e he => ?_, fun e he => ?_⟩
  · rw [c3, List.filter_eq_self.mpr]
    · simp
    · intro b hb
      exact decide_eq_true (hpos (List.mem_range.mp hb))
  · obtain ⟨h1, h2, h3⟩ := d2 l hl
    rw [if_neg hl0] at h1 h2
    rw [h1, h2, h3]
    exact ⟨hentry (k2 l hl), htime (k2 l hl), hself (k2 l hl) hl0⟩
  · obtain ⟨h1, h2, _⟩ := d2 l hl
    rw [if_pos hl0] at h1 h2
    rw [hl0] at h1 h2
    rw [h1, h2, hentry h0, htime h0, htot]
    exact ⟨by omega, by omega⟩
  · rw [e2 l hl]
    exact hself (hid l hl) hl0
  · obtain ⟨_, _, ⟨s1, s2⟩, _⟩ := f2 e he
    obtain ⟨b1, _, b3⟩ := k4 e he
    refine ⟨s1, fun d hd => ⟨b3 d hd, ?_⟩, fun b hb => ?_⟩
    · obtain ⟨_, h2, h3⟩ := (s2 d).mp hd
      obtain ⟨q1, q2⟩ := hcall b1 (b3 d hd)
      exact ⟨h2.trans q1, h3.trans q2⟩
    · obtain ⟨q1, q2⟩ := hcall b1 hb
      rw [← q1]
      constructor
      · rintro ⟨d, hd, rfl⟩; exact ((s2 d).mp hd).1
      · intro h
        exact ⟨⟨b, callsMade e.block.id b _, callTime e.block.id b _⟩, (s2 _).mpr ⟨h, rfl, rfl⟩, rfl⟩
  · obtain ⟨⟨s1, s2⟩, _, _, _⟩ := f2 e he
    obtain ⟨b1, b2, _⟩ := k4 e he
    refine ⟨s1, fun d hd => ⟨b2 d hd, ?_⟩, fun b hb => ?_⟩
    · obtain ⟨_, h2, h3⟩ := (s2 d).mp hd
      obtain ⟨q1, q2⟩ := hcall (b2 d hd) b1
      exact ⟨h2.trans q1, h3.trans q2⟩
    · obtain ⟨q1, q2⟩ := hcall hb b1
      rw [← q1]
      constructor
      · rintro ⟨d, hd, rfl⟩; exact ((s2 d).mp hd).1
      · intro h
        exact ⟨⟨b, callsMade b e.block.id _, callTime b e.block.id _⟩, (s2 _).mpr ⟨h, rfl, rfl⟩, rfl⟩

end Verif.Profile.Perf
