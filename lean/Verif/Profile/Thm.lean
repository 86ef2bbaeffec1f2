import Verif.Profile.Lemmas
/-
C39 - C43: the profiler records exactly what happened.
-/
namespace Verif.Profile

/-- The call a sample stands for. -/
def key (s : St) (p : Nat × Nat) : Nat × Nat := (p.1, (s.data p.2).id)

/-- The call stack with its share of the sample stack mirrors the stack of the specification. -/
def Seg (k : Nat × Nat → Nat × Nat) : List (Nat × Nat) → List (Nat × Nat) → List Level → Prop
  | [], ss, [] => ss = []
  | (id, e) :: cs, ss, l :: ls => id = l.cur ∧ e ≤ ss.length ∧ Seg k cs (ss.drop e) ls ∧
      ∀ x, x ∈ ss.map k ↔ OnStack (l :: ls) x
  | _, _, _ => False

theorem Seg.congr {k k' : Nat × Nat → Nat × Nat} : ∀ {cs ss ls}, (∀ p ∈ ss, k' p = k p) → Seg k cs ss ls →
    Seg k' cs ss ls := by
  intro cs
  induction cs with
  | nil => intro ss ls _ h; cases ls <;> exact h
  | cons c cs ih =>
    intro ss ls hk h
    cases ls with
    | nil => exact h
    | cons l ls =>
      obtain ⟨h1, h2, h3, h4⟩ := h
      refine ⟨h1, h2, ih (fun p hp => hk p (List.mem_of_mem_drop hp)) h3, fun x => ?_⟩
      rw [← h4, List.map_congr_left hk]

structure Inv (n : Nat) (ops : List Op) (s : St) : Prop where
  nub : s.ub = false
  bl : s.blocks = blocksAfter n ops
  seg : Seg (key s) s.calls s.samples (stackAfter ops)
  nd : (s.samples.map (key s)).Nodup
  set : ∀ c, s.sset c = ((s.samples.filter (·.1 == c)).map (·.2)).reverse
  own : ∀ p ∈ s.samples, p.2 ∈ s.callees p.1 ∧ p.1 < s.ssize
  tidy : Tidy s
  ids : ∀ p ∈ s.calls, p.1 < s.blocks
  ssz : s.ssize ≤ s.blocks
  cid : ∀ {c a}, a ∈ s.callees c → (s.data a).id < s.blocks
  zero : ∀ b, s.blocks ≤ b → s.self b = 0 ∧ s.count b = 0 ∧ s.time b = 0 ∧ s.callees b = []
  cnt : ∀ b, s.count b = entries b ops + if b = 0 then 1 else 0
  slf : ∀ b, s.self b = selfTime b ops
  tim : ∀ b, s.time b = blockTime b ops + if b = 0 then allTime ops else 0
  rcd : ∀ {c a}, a ∈ s.callees c → (s.data a).count = callsMade c (s.data a).id ops ∧
    (s.data a).time = callTime c (s.data a).id ops
  non : ∀ c b, (∀ a ∈ s.callees c, (s.data a).id ≠ b) → callsMade c b ops = 0 ∧ callTime c b ops = 0

theorem stack_ne (ops : List Op) : ∀ {n}, Legal n ops → stackAfter ops ≠ [] := by
  induction ops with
  | nil => intro n _; simp [stackAfter]
  | cons op ops ih =>
    intro n hl
    have h := ih hl.1
    cases hs : stackAfter ops with
    | nil => exact absurd hs h
    | cons l ls =>
      cases op with
      | exit =>
        have := hl.2
        simp only [hs] at this
        simp only [stackAfter, hs]
        rintro rfl
        simp at this
      | _ => simp [stackAfter, hs]

theorem initial_inv (n : Nat) : Inv n [] (initial n) where
  nub := rfl
  bl := rfl
  seg := by
    refine ⟨rfl, Nat.zero_le _, rfl, fun x => ?_⟩
    simp [OnStack, initial]
  nd := by simp [initial]
  set := by simp [initial]
  own := by simp [initial]
  tidy := ⟨by simp [initial], by simp [initial], by simp [initial]⟩
  ids := by simp [initial]
  ssz := Nat.le_refl _
  cid := by simp [initial]
  zero := by
    intro b hb
    refine ⟨rfl, ?_, rfl, rfl⟩
    have : n + 1 ≤ b := hb
    simp only [initial]
    rw [upd_ne _ _ (by omega)]
  cnt := by
    intro b
    simp only [entries, tally, initial, upd]
    split <;> rfl
  slf := fun _ => rfl
  tim := by
    intro b
    simp [blockTime, allTime, tally, initial]
  rcd := by simp [initial]
  non := fun _ _ _ => ⟨rfl, rfl⟩

/-! ### Small facts about the tallies -/

theorem tally_cons (w) (op : Op) (ops : List Op) : tally w (op :: ops) = tally w ops + w (stackAfter ops) op := rfl

theorem entries_enter {op b} (h : op = .enter b ∨ op = .replace b) (x : Nat) (ops) :
    entries x (op :: ops) = entries x ops + if x = b then 1 else 0 := by
  rw [entries, tally_cons]
  congr 1
  rcases h with rfl | rfl <;> simp only [Enters, Op.enter.injEq, Op.replace.injEq, reduceCtorEq, or_false, false_or] <;>
    simp only [eq_comm]

theorem callsMade_enter {op b} (h : op = .enter b ∨ op = .replace b) (c x : Nat) (ops) {l ls}
    (hs : stackAfter ops = l :: ls) :
    callsMade c x (op :: ops) = callsMade c x ops + if x = b ∧ c = l.cur then 1 else 0 := by
  rw [callsMade, tally_cons]
  congr 1
  rcases h with rfl | rfl <;>
    simp only [Enters, Op.enter.injEq, Op.replace.injEq, reduceCtorEq, or_false, false_or, hs, running,
      List.head?_cons, Option.map_some, Option.some.injEq] <;>
    simp only [eq_comm]

theorem times_enter {op b} (h : op = .enter b ∨ op = .replace b ∨ op = .exit ∨ op = .addBlock) (ops) :
    (∀ x, selfTime x (op :: ops) = selfTime x ops) ∧ (∀ x, blockTime x (op :: ops) = blockTime x ops) ∧
    (∀ c x, callTime c x (op :: ops) = callTime c x ops) ∧ allTime (op :: ops) = allTime ops := by
  simp only [selfTime, blockTime, callTime, allTime, tally_cons]
  rcases h with rfl | rfl | rfl | rfl <;> simp [sampled]

theorem counts_other {op} (h : ∀ b, op ≠ .enter b ∧ op ≠ .replace b) (ops) :
    (∀ x, entries x (op :: ops) = entries x ops) ∧ (∀ c x, callsMade c x (op :: ops) = callsMade c x ops) := by
  simp only [entries, callsMade, tally_cons]
  refine ⟨fun x => ?_, fun c x => ?_⟩ <;> simp [Enters, (h _).1, (h _).2]

theorem find_iff {s : St} {caller block : Nat}
    (hset : ∀ c, s.sset c = ((s.samples.filter (·.1 == c)).map (·.2)).reverse) :
    (∀ a, (s.sset caller).find? (fun a => (s.data a).id == block) = some a →
      (caller, a) ∈ s.samples ∧ (s.data a).id = block) ∧
    ((s.sset caller).find? (fun a => (s.data a).id == block) = none →
      (caller, block) ∉ s.samples.map (key s)) := by
  constructor
  · intro a ha
    have h1 := List.mem_of_find?_eq_some ha
    have h2 := List.find?_some ha
    rw [hset] at h1
    simp only [List.mem_reverse, List.mem_map, List.mem_filter, beq_iff_eq, Prod.exists] at h1
    obtain ⟨c, a', ⟨hm, rfl⟩, rfl⟩ := h1
    exact ⟨hm, by simpa using h2⟩
  · intro hn hm
    rw [List.find?_eq_none] at hn
    simp only [List.mem_map, key, Prod.exists, Prod.mk.injEq] at hm
    obtain ⟨c, a, hm, rfl, hb⟩ := hm
    refine hn a ?_ (by simpa using hb)
    rw [hset]
    simp only [List.mem_reverse, List.mem_map, List.mem_filter, beq_iff_eq, Prod.exists]
    exact ⟨c, a, ⟨hm, rfl⟩, rfl⟩

theorem resize_eq {n ops s} (inv : Inv n ops s) {b caller : Nat} (hb : b < s.blocks) (hc : caller < s.blocks) :
    ∃ z, caller < z ∧ s.ssize ≤ z ∧ z ≤ s.blocks ∧
      prepare s b caller =
      { s with count := upd s.count b (s.count b + 1), ssize := z } := by
  have hb' : decide (s.blocks ≤ b) = false := by simpa using hb
  simp only [prepare, resize, hb', inv.nub]
  split
  · rename_i hle
    refine ⟨s.blocks, hc, inv.ssz, Nat.le_refl _, ?_⟩
    have e : (fun i => if s.ssize ≤ i ∧ i < s.blocks then [] else s.sset i) = s.sset := by
      funext i
      split
      · rename_i hi
        rw [inv.set]
        have : s.samples.filter (·.1 == i) = [] := List.filter_eq_nil_iff.mpr fun p hp => by
          have := (inv.own p hp).2
          simp only [beq_iff_eq]
          omega
        simp [this]
      · rfl
    have hd : decide (s.blocks ≤ caller) = false := by simpa using hc
    have hu := inv.nub
    cases s
    simp_all
  · rename_i hle
    refine ⟨s.ssize, by omega, Nat.le_refl _, inv.ssz, ?_⟩
    have hd : decide (s.ssize ≤ caller) = false := by simpa using hle
    have hu := inv.nub
    cases s
    simp_all

/-- EnterBlock. -/
theorem enter_inv {n ops s} (inv : Inv n ops s) (hne : stackAfter ops ≠ []) {op b} {rp : Bool}
    (ho : op = if rp then .replace b else .enter b) (hb : b < blocksAfter n ops) :
    Inv n (op :: ops) (enter s b rp) := by
  have hop : op = .enter b ∨ op = .replace b := by cases rp <;> simp_all
  have hop' : op = .enter b ∨ op = .replace b ∨ op = .exit ∨ op = .addBlock := by tauto
  obtain ⟨t1, t2, t3, t4⟩ := times_enter hop' ops
  have hbl : blocksAfter n (op :: ops) = blocksAfter n ops := by
    rcases hop with rfl | rfl <;> rfl
  have seg := inv.seg
  cases hs : stackAfter ops with
  | nil => exact absurd hs hne
  | cons l ls =>
  cases hc : s.calls with
  | nil => rw [hc, hs] at seg; exact seg.elim
  | cons p rest =>
  obtain ⟨caller, exit⟩ := p
  rw [hc, hs] at seg
  obtain ⟨g1, g2, g3, g4⟩ := seg
  subst g1
  have hst : stackAfter (op :: ops) = if rp then ⟨b, (l.cur, b) :: l.edges⟩ :: ls else
      ⟨b, [(l.cur, b)]⟩ :: l :: ls := by
    subst ho
    cases rp <;> simp [stackAfter, hs]
  have hcl : l.cur < s.blocks := inv.ids (l.cur, exit) (by rw [hc]; simp)
  have hbs : b < s.blocks := inv.bl ▸ hb
  obtain ⟨z, z1, z2, z3, ez⟩ := resize_eq inv hbs hcl
  have hon : ∀ x, OnStack (stackAfter (op :: ops)) x ↔ x = (l.cur, b) ∨ OnStack (l :: ls) x := by
    intro x
    rw [hst]
    cases rp <;> simp [OnStack, or_assoc]
  have hcnt : ∀ x, upd s.count b (s.count b + 1) x = entries x (op :: ops) + if x = 0 then 1 else 0 := by
    intro x
    rw [entries_enter hop]
    simp only [upd]
    split
    · rename_i e; rw [e, inv.cnt b]; omega
    · rw [inv.cnt x]; omega
  have hmade := fun c x => callsMade_enter hop c x ops hs
  have he : enter s b rp = enterFrom (prepare s b l.cur) l.cur exit rest b rp := by
    unfold enter; simp only [hc]
  rw [he, ez]
  unfold enterFrom
  dsimp only
  obtain ⟨f1, f2⟩ := find_iff (s := s) (caller := l.cur) (block := b) inv.set
  split
  · -- the call is already running
    rename_i a hf
    obtain ⟨hm, hid⟩ := f1 a hf
    have hdid : ∀ x, (upd s.data a { s.data a with count := (s.data a).count + 1 } x).id = (s.data x).id := by
      intro x
      simp only [upd]
      split
      · rename_i e; rw [e]
      · rfl
    have hkey : ∀ p, (p.1, (upd s.data a { s.data a with count := (s.data a).count + 1 } p.2).id) = key s p := by
      intro p
      rw [hdid]
      rfl
    have hamem : a ∈ s.callees l.cur := (inv.own _ hm).1
    have hrun : OnStack (l :: ls) (l.cur, b) := (g4 _).mp (by
      simp only [List.mem_map]
      exact ⟨_, hm, by simp [key, hid]⟩)
    have hon' : ∀ x, OnStack (stackAfter (op :: ops)) x ↔ OnStack (l :: ls) x := by
      intro x
      rw [hon]
      constructor
      · rintro (rfl | h)
        · exact hrun
        · exact h
      · exact .inr
    have hseg0 : Seg (key s) rest (s.samples.drop exit) ls := g3
    refine ⟨inv.nub, inv.bl.trans hbl.symm, ?_, ?_, ?_, ?_, ?_, ?_, z3, ?_, ?_, hcnt, ?_, ?_, ?_, ?_⟩
    · have : ∀ cs ss ls', Seg (key s) cs ss ls' →
          Seg (key { countData { s with count := upd s.count b (s.count b + 1), ssize := z } a with
            calls := if rp then (b, exit) :: rest else (b, 0) :: (l.cur, exit) :: rest }) cs ss ls' :=
        fun cs ss ls' h => h.congr fun p _ => hkey p
      apply this
      show Seg (key s) (if rp then (b, exit) :: rest else (b, 0) :: (l.cur, exit) :: rest) s.samples _
      rw [hst] at hon' ⊢
      cases rp
      · exact ⟨rfl, Nat.zero_le _, ⟨rfl, g2, hseg0, g4⟩, fun x => by rw [g4]; exact (hon' x).symm⟩
      · exact ⟨rfl, g2, hseg0, fun x => by rw [g4]; exact (hon' x).symm⟩
    · show (s.samples.map fun p =>
        (p.1, (upd s.data a { s.data a with count := (s.data a).count + 1 } p.2).id)).Nodup
      rw [List.map_congr_left (g := key s) fun p _ => hkey p]
      exact inv.nd
    · exact inv.set
    · intro p hp
      exact ⟨(inv.own p hp).1, Nat.lt_of_lt_of_le (inv.own p hp).2 z2⟩
    · refine ⟨inv.tidy.addr, inv.tidy.uniq, fun c => ?_⟩
      refine (inv.tidy.sorted c).imp fun {x y} h => ?_
      show (upd s.data a _ x).id < (upd s.data a _ y).id
      rw [hdid, hdid]
      exact h
    · intro p hp
      show p.1 < s.blocks
      have hp : p ∈ (if rp then (b, exit) :: rest else (b, 0) :: (l.cur, exit) :: rest) := hp
      have hr : ∀ p ∈ rest, p.1 < s.blocks := fun p hp => inv.ids p (by rw [hc]; simp [hp])
      cases rp <;> simp only [Bool.false_eq_true, if_false, if_true, List.mem_cons] at hp
      · rcases hp with rfl | rfl | hp
        · exact hbs
        · exact hcl
        · exact hr p hp
      · rcases hp with rfl | hp
        · exact hbs
        · exact hr p hp
    · intro c x hx
      show (upd s.data a _ x).id < s.blocks
      rw [hdid]
      exact inv.cid hx
    · intro x hx
      have hx : s.blocks ≤ x := hx
      obtain ⟨z4, z5, z6, z7⟩ := inv.zero x hx
      refine ⟨z4, ?_, z6, z7⟩
      show upd s.count b (s.count b + 1) x = 0
      rw [upd_ne _ _ (by omega)]
      exact z5
    · intro x; rw [t1]; exact inv.slf x
    · intro x; rw [t2, t4]; exact inv.tim x
    · intro c x hx
      have hx : x ∈ s.callees c := hx
      obtain ⟨r1, r2⟩ := inv.rcd hx
      show (upd s.data a _ x).count = _ ∧ (upd s.data a _ x).time = _
      rw [hmade, t3]
      show _ = callsMade c (upd s.data a _ x).id ops + (if (upd s.data a _ x).id = b ∧ c = l.cur then 1 else 0) ∧
        _ = callTime c (upd s.data a _ x).id ops
      rw [hdid]
      by_cases e : x = a
      · subst e
        have hc' := inv.tidy.uniq hx hamem
        simp only [upd_same]
        rw [if_pos ⟨hid, hc'⟩, ← r1, ← r2]
        exact ⟨rfl, rfl⟩
      · rw [upd_ne _ _ e, ← r1, ← r2, if_neg]
        · exact ⟨rfl, rfl⟩
        · rintro ⟨e1, rfl⟩
          -- two records with the same id in one sorted list
          have hp := inv.tidy.sorted l.cur
          rcases List.pairwise_iff_getElem.mp hp with hp
          obtain ⟨i, hi, rfl⟩ := List.getElem_of_mem hx
          obtain ⟨j, hj, rfl⟩ := List.getElem_of_mem hamem
          rcases Nat.lt_trichotomy i j with h | h | h
          · have := hp i j hi hj h; omega
          · subst h; exact e rfl
          · have := hp j i hj hi h; omega
    · intro c x hx
      have hx : ∀ y ∈ s.callees c, (upd s.data a { s.data a with count := (s.data a).count + 1 } y).id ≠ x := hx
      obtain ⟨r1, r2⟩ := inv.non c x fun y hy => by rw [← hdid]; exact hx y hy
      rw [hmade, t3, r1, r2, if_neg]
      · exact ⟨rfl, rfl⟩
      · rintro ⟨rfl, rfl⟩
        exact hx a hamem ((hdid a).trans hid)
  · -- a new call
    rename_i hf
    have hnot := f2 hf
    have L := getCallData_spec (s := { s with count := upd s.count b (s.count b + 1), ssize := z })
      ⟨inv.tidy.addr, inv.tidy.uniq, inv.tidy.sorted⟩ l.cur b
    generalize hp : getCallData { s with count := upd s.count b (s.count b + 1), ssize := z } l.cur b = p at L ⊢
    obtain ⟨s1, a⟩ := p
    simp only at L ⊢
    -- the fields of s1
    have hid := L.isId
    have hd1 : ∀ {c x}, x ∈ s.callees c → s1.data x = s.data x := by
      intro c x hx
      rcases L.old with ⟨e, _⟩ | ⟨_, e1, e2, _⟩
      · rw [e]
      · rw [e2, upd_ne _ _]
        rw [e1]
        exact Nat.ne_of_lt (inv.tidy.addr hx)
    have hca : ∀ c x, x ∈ s1.callees c ↔ x ∈ s.callees c ∨ (c = l.cur ∧ x = a) := by
      intro c x
      rcases L.old with ⟨e, e'⟩ | ⟨_, e1, e2, e3, e4, _⟩
      · rw [e]
        constructor
        · exact .inl
        · rintro (h | ⟨rfl, rfl⟩)
          · exact h
          · exact e'
      · by_cases hc : c = l.cur
        · subst hc
          rw [e3]
          have : ∀ {y}, y ∈ { s with count := upd s.count b (s.count b + 1), ssize := z }.callees l.cur ↔
            y ∈ s.callees l.cur := Iff.rfl
          tauto
        · rw [e4 c hc]
          simp [hc]
    have hrec0 : (s1.data a).count = callsMade l.cur b ops ∧ (s1.data a).time = callTime l.cur b ops := by
      rcases L.old with ⟨e, e'⟩ | ⟨e0, e1, e2, _⟩
      · have := inv.rcd e'
        rw [← hd1 e', hid] at this
        exact this
      · have := inv.non l.cur b e0
        rw [e2, upd_same, this.1, this.2]
        exact ⟨rfl, rfl⟩
    have hrest : s1.samples = s.samples ∧ s1.sset = s.sset ∧ s1.ssize = z ∧ s1.blocks = s.blocks ∧
        s1.self = s.self ∧ s1.count = upd s.count b (s.count b + 1) ∧ s1.time = s.time ∧ s1.ub = s.ub := by
      rcases L.old with ⟨e, e'⟩ | ⟨e0, e1, e2, e3, e4, e5⟩
      · rw [e]; exact ⟨rfl, rfl, rfl, rfl, rfl, rfl, rfl, rfl⟩
      · rw [e5]; exact ⟨rfl, rfl, rfl, rfl, rfl, rfl, rfl, rfl⟩
    obtain ⟨q1, q2, q3, q4, q5, q6, q7, q8⟩ := hrest
    have hdid : ∀ x, (upd s1.data a { s1.data a with count := (s1.data a).count + 1 } x).id = (s1.data x).id := by
      intro x
      simp only [upd]
      split
      · rename_i e; rw [e]
      · rfl
    have hkey : ∀ p ∈ s.samples, (p.1, (upd s1.data a { s1.data a with count := (s1.data a).count + 1 } p.2).id) =
        key s p := by
      intro p hp
      rw [hdid, hd1 (inv.own p hp).1]
      rfl
    have hkey0 : (l.cur, (upd s1.data a { s1.data a with count := (s1.data a).count + 1 } a).id) = (l.cur, b) := by
      rw [hdid, hid]
    have hsam : (countData s1 a).samples = s.samples := q1
    have hamem : a ∈ s1.callees l.cur := L.mem
    refine ⟨q8.trans inv.nub, q4.trans (inv.bl.trans hbl.symm), ?_, ?_, ?_, ?_, ?_, ?_, ?_, ?_, ?_, ?_, ?_, ?_, ?_, ?_⟩
    · show Seg (fun p => (p.1, (upd s1.data a { s1.data a with count := (s1.data a).count + 1 } p.2).id))
        (if rp then (b, exit + 1) :: rest else (b, 1) :: (l.cur, exit) :: rest)
        ((l.cur, a) :: (countData s1 a).samples) _
      rw [hsam]
      have hmem : ∀ x, x ∈ ((l.cur, a) :: s.samples).map
          (fun p => (p.1, (upd s1.data a { s1.data a with count := (s1.data a).count + 1 } p.2).id)) ↔
          OnStack (stackAfter (op :: ops)) x := by
        intro x
        rw [List.map_cons, List.mem_cons, hon, ← g4, List.map_congr_left hkey]
        dsimp only
        rw [hkey0]
      have hseg0 : Seg (fun p => (p.1, (upd s1.data a { s1.data a with count := (s1.data a).count + 1 } p.2).id))
          rest (s.samples.drop exit) ls := g3.congr fun p hp => hkey p (List.mem_of_mem_drop hp)
      rw [hst] at hmem ⊢
      cases rp
      · refine ⟨rfl, by simp, ⟨rfl, g2, hseg0, fun x => ?_⟩, hmem⟩
        show x ∈ List.map _ s.samples ↔ _
        rw [List.map_congr_left hkey]
        exact g4 x
      · exact ⟨rfl, by simpa using g2, hseg0, hmem⟩
    · show (((l.cur, a) :: (countData s1 a).samples).map fun p =>
        (p.1, (upd s1.data a { s1.data a with count := (s1.data a).count + 1 } p.2).id)).Nodup
      rw [hsam, List.map_cons, List.nodup_cons, List.map_congr_left (g := key s) hkey]
      refine ⟨?_, inv.nd⟩
      show (l.cur, (upd s1.data a _ a).id) ∉ _
      rw [hkey0]
      exact hnot
    · intro c
      show upd s1.sset l.cur (s1.sset l.cur ++ [a]) c =
        ((((l.cur, a) :: (countData s1 a).samples).filter (·.1 == c)).map (·.2)).reverse
      rw [hsam, q2]
      by_cases hc : c = l.cur
      · subst hc
        rw [upd_same, inv.set]
        simp
      · rw [upd_ne _ _ hc, inv.set]
        simp [Ne.symm hc]
    · intro p hp
      have hp : p ∈ (l.cur, a) :: (countData s1 a).samples := hp
      show p.2 ∈ s1.callees p.1 ∧ p.1 < s1.ssize
      rw [q3]
      rw [hsam] at hp
      rcases List.mem_cons.mp hp with rfl | hp
      · exact ⟨hamem, z1⟩
      · exact ⟨(hca _ _).mpr (.inl (inv.own p hp).1), Nat.lt_of_lt_of_le (inv.own p hp).2 z2⟩
    · refine ⟨L.tidy.addr, L.tidy.uniq, fun c => ?_⟩
      refine (L.tidy.sorted c).imp fun {x y} h => ?_
      show (upd s1.data a _ x).id < (upd s1.data a _ y).id
      rw [hdid, hdid]
      exact h
    · intro p hp
      show p.1 < s1.blocks
      rw [q4]
      have hp : p ∈ (if rp then (b, exit + 1) :: rest else (b, 1) :: (l.cur, exit) :: rest) := hp
      have hr : ∀ p ∈ rest, p.1 < s.blocks := fun p hp => inv.ids p (by rw [hc]; simp [hp])
      cases rp <;> simp only [Bool.false_eq_true, if_false, if_true, List.mem_cons] at hp
      · rcases hp with rfl | rfl | hp
        · exact hbs
        · exact hcl
        · exact hr p hp
      · rcases hp with rfl | hp
        · exact hbs
        · exact hr p hp
    · show s1.ssize ≤ s1.blocks
      rw [q3, q4]; exact z3
    · intro c x hx
      have hx : x ∈ s1.callees c := hx
      show (upd s1.data a _ x).id < s1.blocks
      rw [hdid, q4]
      rcases (hca c x).mp hx with hx' | ⟨_, rfl⟩
      · rw [hd1 hx']; exact inv.cid hx'
      · rw [hid]; exact hbs
    · intro x hx
      have hx : s1.blocks ≤ x := hx
      rw [q4] at hx
      obtain ⟨z4, z5, z6, z7⟩ := inv.zero x hx
      refine ⟨?_, ?_, ?_, ?_⟩
      · show s1.self x = 0
        rw [q5]; exact z4
      · show s1.count x = 0
        rw [q6, upd_ne _ _ (by omega)]; exact z5
      · show s1.time x = 0
        rw [q7]; exact z6
      · show s1.callees x = []
        refine List.eq_nil_iff_forall_not_mem.mpr fun y hy => ?_
        rcases (hca x y).mp hy with h | ⟨rfl, _⟩
        · rw [z7] at h; cases h
        · omega
    · intro x
      show s1.count x = _
      rw [q6]
      exact hcnt x
    · intro x
      show s1.self x = _
      rw [t1, q5]; exact inv.slf x
    · intro x
      show s1.time x = _
      rw [t2, t4, q7]; exact inv.tim x
    · intro c x hx
      have hx : x ∈ s1.callees c := hx
      show (upd s1.data a _ x).count = _ ∧ (upd s1.data a _ x).time = _
      rw [hmade, t3]
      show _ = callsMade c (upd s1.data a _ x).id ops + (if (upd s1.data a _ x).id = b ∧ c = l.cur then 1 else 0) ∧
        _ = callTime c (upd s1.data a _ x).id ops
      rw [hdid]
      by_cases e : x = a
      · subst e
        have hc' := L.tidy.uniq hx hamem
        subst hc'
        simp only [upd_same]
        rw [hid, hrec0.1, hrec0.2]
        simp
      · rw [upd_ne _ _ e]
        rcases (hca c x).mp hx with hx' | ⟨_, h⟩
        · obtain ⟨r1, r2⟩ := inv.rcd hx'
          rw [hd1 hx', r1, r2, if_neg]
          · exact ⟨rfl, rfl⟩
          · rintro ⟨e1, rfl⟩
            have hpw := List.pairwise_iff_getElem.mp (L.tidy.sorted l.cur)
            rw [← hd1 hx'] at e1
            obtain ⟨i, hi, rfl⟩ := List.getElem_of_mem hx
            obtain ⟨j, hj, rfl⟩ := List.getElem_of_mem hamem
            rcases Nat.lt_trichotomy i j with h | h | h
            · have := hpw i j hi hj h; omega
            · subst h; exact e rfl
            · have := hpw j i hj hi h; omega
        · exact absurd h e
    · intro c x hx
      have hx : ∀ y ∈ s1.callees c, (upd s1.data a { s1.data a with count := (s1.data a).count + 1 } y).id ≠ x := hx
      obtain ⟨r1, r2⟩ := inv.non c x fun y hy => by
        rw [← hd1 hy, ← hdid]; exact hx y ((hca c y).mpr (.inl hy))
      rw [hmade, t3, r1, r2, if_neg]
      · exact ⟨rfl, rfl⟩
      · rintro ⟨rfl, rfl⟩
        exact hx a hamem ((hdid a).trans hid)


theorem pop_spec : ∀ (e : Nat) (s : St), e ≤ s.samples.length →
    (∀ c, s.sset c = ((s.samples.filter (·.1 == c)).map (·.2)).reverse) →
    ∃ g, popSamples e s = { s with samples := s.samples.drop e, sset := g } ∧
      ∀ c, g c = (((s.samples.drop e).filter (·.1 == c)).map (·.2)).reverse := by
  intro e
  induction e with
  | zero => intro s _ h; exact ⟨s.sset, by simp [popSamples], by simpa using h⟩
  | succ e ih =>
    intro s he h
    unfold popSamples
    cases hs : s.samples with
    | nil => rw [hs] at he; simp at he
    | cons p t =>
      obtain ⟨caller, a⟩ := p
      obtain ⟨g, e1, e2⟩ := ih { s with samples := t, sset := upd s.sset caller (s.sset caller).dropLast }
        (by rw [hs] at he; simpa using he) (by
          intro c
          by_cases hc : c = caller
          · subst hc
            simp only [upd_same, h, hs]
            simp
          · simp only [upd_ne _ _ hc, h, hs]
            simp [Ne.symm hc])
      exact ⟨g, by simpa using e1, by simpa using e2⟩

theorem exit_inv {n ops s} (inv : Inv n ops s) (hl : 1 < (stackAfter ops).length) :
    Inv n (.exit :: ops) (exitBlock s) := by
  obtain ⟨t1, t2, t3, t4⟩ := times_enter (op := .exit) (b := 0) (.inr (.inr (.inl rfl))) ops
  obtain ⟨u1, u2⟩ := counts_other (op := .exit) (fun b => ⟨by simp, by simp⟩) ops
  have seg := inv.seg
  cases hs : stackAfter ops with
  | nil => rw [hs] at hl; simp at hl
  | cons l ls =>
  cases hc : s.calls with
  | nil => rw [hc, hs] at seg; exact seg.elim
  | cons p rest =>
  obtain ⟨b, e⟩ := p
  rw [hc, hs] at seg
  obtain ⟨g1, g2, g3, g4⟩ := seg
  obtain ⟨g, e1, e2⟩ := pop_spec e s g2 inv.set
  have hst : stackAfter (.exit :: ops) = ls := by simp [stackAfter, hs]
  have hrest : rest.isEmpty = false := by
    cases rest with
    | cons _ _ => rfl
    | nil =>
      cases ls with
      | nil => rw [hs] at hl; simp at hl
      | cons _ _ => exact g3.elim
  have he : exitBlock s = { s with samples := s.samples.drop e, sset := g, calls := rest } := by
    unfold exitBlock
    simp only [hc, e1, hrest, Bool.or_false]
  rw [he]
  have hdr : ∀ {p}, p ∈ s.samples.drop e → p ∈ s.samples := List.mem_of_mem_drop
  refine ⟨inv.nub, inv.bl, ?_, ?_, e2, fun p hp => inv.own p (hdr hp), ⟨inv.tidy.addr, inv.tidy.uniq, inv.tidy.sorted⟩,
    fun p hp => inv.ids p (by rw [hc]; exact List.mem_cons_of_mem _ hp), inv.ssz, inv.cid, inv.zero, ?_, ?_, ?_, ?_, ?_⟩
  · rw [hst]; exact g3
  · have := inv.nd
    show ((s.samples.drop e).map (key s)).Nodup
    rw [List.map_drop]
    exact this.sublist (List.drop_sublist _ _)
  · intro b; rw [u1]; exact inv.cnt b
  · intro b; rw [t1]; exact inv.slf b
  · intro b; rw [t2, t4]; exact inv.tim b
  · intro c a ha; rw [u2, t3]; exact inv.rcd ha
  · intro c b h; rw [u2, t3]; exact inv.non c b h

theorem addBlock_inv {n ops s} (inv : Inv n ops s) : Inv n (.addBlock :: ops) (addBlock s) := by
  obtain ⟨t1, t2, t3, t4⟩ := times_enter (op := .addBlock) (b := 0) (.inr (.inr (.inr rfl))) ops
  obtain ⟨u1, u2⟩ := counts_other (op := .addBlock) (fun b => ⟨by simp, by simp⟩) ops
  obtain ⟨z1, z2, z3, z4⟩ := inv.zero s.blocks (Nat.le_refl _)
  have e : ∀ {β : Type} (f : Nat → β) (x : β), f s.blocks = x → upd f s.blocks x = f := by
    intro β f x h
    funext i
    simp only [upd]
    split
    · rename_i hi; rw [hi, h]
    · rfl
  have he : addBlock s = { s with blocks := s.blocks + 1 } := by
    unfold addBlock
    rw [e _ _ z1, e _ _ z2, e _ _ z3, e _ _ z4]
  rw [he]
  have hst : stackAfter (.addBlock :: ops) = stackAfter ops := by
    simp only [stackAfter]
  refine ⟨inv.nub, by show s.blocks + 1 = _; rw [inv.bl]; rfl, hst ▸ inv.seg, inv.nd, inv.set, inv.own,
    ⟨inv.tidy.addr, inv.tidy.uniq, inv.tidy.sorted⟩, fun p hp => Nat.lt_succ_of_lt (inv.ids p hp),
    Nat.le_succ_of_le inv.ssz, fun h => Nat.lt_succ_of_lt (inv.cid h), fun b hb => inv.zero b (Nat.le_of_succ_le hb), ?_, ?_, ?_, ?_, ?_⟩
  · intro b; rw [u1]; exact inv.cnt b
  · intro b; rw [t1]; exact inv.slf b
  · intro b; rw [t2, t4]; exact inv.tim b
  · intro c a ha; rw [u2, t3]; exact inv.rcd ha
  · intro c b h; rw [u2, t3]; exact inv.non c b h

/-- What the sampling loop does. -/
theorem charge_spec (t : Nat) : ∀ (r : List (Nat × Nat)) (seen : List Nat) (s : St), (r.map (·.2)).Nodup →
    ∃ dt tm, charge t seen r s = { s with data := dt, time := tm } ∧
      (∀ a, dt a = { s.data a with time := (s.data a).time + if a ∈ r.map (·.2) then t else 0 }) ∧
      (∀ b, tm b = s.time b + if b ∉ seen ∧ b ∈ r.map (fun p => (s.data p.2).id) then t else 0) := by
  intro r
  induction r with
  | nil => intro seen s _; exact ⟨s.data, s.time, rfl, by simp, by simp⟩
  | cons p r ih =>
    intro seen s hnd
    obtain ⟨c, a⟩ := p
    simp only [List.map_cons, List.nodup_cons] at hnd
    unfold charge
    dsimp only
    have hid : ∀ (s1 : St) x, (upd s1.data a { s1.data a with time := (s1.data a).time + t } x).id = (s1.data x).id := by
      intro s1 x
      simp only [upd]
      split
      · rename_i e; rw [e]
      · rfl
    have hmc : ∀ x, x ∈ ((c, a) :: r).map (·.2) ↔ x = a ∨ x ∈ r.map (·.2) := fun x => by
      rw [List.map_cons, List.mem_cons]
    have hdata : ∀ (s1 : St) (dt : Nat → Data), s1.data = s.data →
        (∀ x, dt x = { upd s1.data a { s1.data a with time := (s1.data a).time + t } x with
          time := (upd s1.data a { s1.data a with time := (s1.data a).time + t } x).time +
            if x ∈ r.map (·.2) then t else 0 }) →
        ∀ x, dt x = { s.data x with time := (s.data x).time + if x ∈ ((c, a) :: r).map (·.2) then t else 0 } := by
      intro s1 dt h1 h x
      rw [h x, h1]
      by_cases e : x = a
      · subst e
        simp [upd_same, hnd.1]
      · rw [upd_ne _ _ e]
        simp only [hmc, e, false_or]
    by_cases hin : seen.contains (s.data a).id = true
    · simp only [hin, if_true]
      obtain ⟨dt, tm, e1, e2, e3⟩ := ih seen
        { s with data := upd s.data a { s.data a with time := (s.data a).time + t } } hnd.2
      refine ⟨dt, tm, e1, hdata s dt rfl e2, fun b => ?_⟩
      rw [e3]
      simp only [hid, List.map_cons, List.mem_cons]
      congr 1
      have : (s.data a).id ∈ seen := by simpa using hin
      by_cases hb : b = (s.data a).id
      · subst hb; simp [this]
      · simp only [hb, false_or]
    · simp only [hin, Bool.false_eq_true, if_false]
      obtain ⟨dt, tm, e1, e2, e3⟩ := ih ((s.data a).id :: seen)
        { s with time := upd s.time (s.data a).id (s.time (s.data a).id + t),
                 data := upd s.data a { s.data a with time := (s.data a).time + t } } hnd.2
      refine ⟨dt, tm, e1, hdata s dt rfl e2, fun b => ?_⟩
      rw [e3]
      simp only [List.map_cons, List.mem_cons, not_or]
      have hid' : ∀ x, (upd s.data a { s.data a with time := (s.data a).time + t } x).id = (s.data x).id := hid s
      have : (s.data a).id ∉ seen := by simpa using hin
      by_cases hb : b = (s.data a).id
      · subst hb; simp [this]
      · rw [upd_ne _ _ hb]
        simp only [hid', hb, false_or, not_false_eq_true, true_and]

theorem sample_inv {n ops s} (inv : Inv n ops s) (hne : stackAfter ops ≠ []) (t : Nat) :
    Inv n (.sample t :: ops) (sample s t) := by
  obtain ⟨u1, u2⟩ := counts_other (op := .sample t) (fun b => ⟨by simp, by simp⟩) ops
  have seg := inv.seg
  cases hs : stackAfter ops with
  | nil => exact absurd hs hne
  | cons l ls =>
  cases hc : s.calls with
  | nil => rw [hc, hs] at seg; exact seg.elim
  | cons p rest =>
  obtain ⟨top, e⟩ := p
  rw [hc, hs] at seg
  obtain ⟨g1, g2, g3, g4⟩ := seg
  have hcl : top < s.blocks := inv.ids (top, e) (by rw [hc]; simp)
  have hst : stackAfter (.sample t :: ops) = l :: ls := by simp only [stackAfter, hs]
  -- the addresses of the samples are different from each other
  have hnd : (s.samples.reverse.map (·.2)).Nodup := by
    rw [List.map_reverse]
    refine List.pairwise_reverse.mpr ?_
    refine List.Pairwise.imp (R := (· ≠ ·)) (fun h => h.symm) ?_
    have key_inj : ∀ p ∈ s.samples, ∀ q ∈ s.samples, p.2 = q.2 → key s p = key s q := by
      intro p hp q hq h
      have hp' := (inv.own p hp).1
      have hq' := (inv.own q hq).1
      rw [← h] at hq'
      simp only [key, h, inv.tidy.uniq hp' hq']
    have nd := inv.nd
    revert nd key_inj
    generalize s.samples = xs
    intro key_inj nd
    induction xs with
    | nil => simp
    | cons x xs ih =>
      simp only [List.map_cons, List.nodup_cons, List.mem_map, not_exists, not_and] at nd ⊢
      refine List.nodup_cons.mpr ⟨by simpa using fun c hy => nd.1 (c, x.2) hy (key_inj _ (by simp [hy]) x (by simp) rfl), ih (fun p hp q hq => key_inj p
        (by simp [hp]) q (by simp [hq])) nd.2⟩
  obtain ⟨dt, tm, e1, e2, e3⟩ := charge_spec t s.samples.reverse []
    { s with self := upd s.self top (s.self top + t) } hnd
  have he : sample s t = { s with self := upd s.self top (s.self top + t), data := dt, time := upd tm 0 (tm 0 + t) } := by
    have : sample s t = { charge t [] s.samples.reverse { s with self := upd s.self top (s.self top + t) } with
      time := upd (charge t [] s.samples.reverse { s with self := upd s.self top (s.self top + t) }).time 0
        ((charge t [] s.samples.reverse { s with self := upd s.self top (s.self top + t) }).time 0 + t) } := by
      unfold sample
      simp only [hc]
    rw [this, e1]
  rw [he]
  simp only [List.map_reverse, List.mem_reverse] at e2 e3
  have hid : ∀ x, (dt x).id = (s.data x).id := fun x => by rw [e2]
  have hk : ∀ p, (p.1, (dt p.2).id) = key s p := fun p => by rw [hid]; rfl
  have hself : ∀ b, selfTime b (.sample t :: ops) = selfTime b ops + if b = top then t else 0 := by
    intro b
    rw [selfTime, tally_cons]
    congr 1
    simp only [hs, running, List.head?_cons, Option.map_some, Option.some.injEq, sampled, g1]
    simp only [eq_comm]
  have hblock : ∀ b, blockTime b (.sample t :: ops) = blockTime b ops +
      if b ∈ s.samples.map (fun p => (s.data p.2).id) then t else 0 := by
    intro b
    rw [blockTime, tally_cons]
    congr 1
    have : BlockOn (l :: ls) b ↔ b ∈ s.samples.map (fun p => (s.data p.2).id) := by
      unfold BlockOn
      simp only [← g4, List.mem_map, key, Prod.mk.injEq]
      constructor
      · rintro ⟨c, p, hp, _, h⟩; exact ⟨p, hp, h⟩
      · rintro ⟨p, hp, h⟩; exact ⟨p.1, p, hp, rfl, h⟩
    simp only [hs, sampled, this]
  have hcall : ∀ {c a}, a ∈ s.callees c → callTime c (s.data a).id (.sample t :: ops) =
      callTime c (s.data a).id ops + if a ∈ s.samples.map (·.2) then t else 0 := by
    intro c a ha
    rw [callTime, tally_cons]
    congr 1
    have : OnStack (l :: ls) (c, (s.data a).id) ↔ a ∈ s.samples.map (·.2) := by
      simp only [← g4, List.mem_map, key, Prod.mk.injEq]
      constructor
      · rintro ⟨p, hp, rfl, h⟩
        refine ⟨p, hp, ?_⟩
        have hp' := (inv.own p hp).1
        have hpw := List.pairwise_iff_getElem.mp (inv.tidy.sorted p.1)
        obtain ⟨i, hi, h1⟩ := List.getElem_of_mem hp'
        obtain ⟨j, hj, h2⟩ := List.getElem_of_mem ha
        rcases Nat.lt_trichotomy i j with h' | h' | h'
        · have := hpw i j hi hj h'; rw [h1, h2] at this; omega
        · subst h'; exact h1.symm.trans h2
        · have := hpw j i hj hi h'; rw [h1, h2] at this; omega
      · rintro ⟨p, hp, rfl⟩
        exact ⟨p, hp, inv.tidy.uniq (inv.own p hp).1 ha, rfl⟩
    simp only [hs, sampled, this]
  have hcall0 : ∀ {c b}, (∀ a ∈ s.callees c, (s.data a).id ≠ b) → callTime c b (.sample t :: ops) =
      callTime c b ops := by
    intro c b h
    rw [callTime, tally_cons]
    have : ¬ OnStack (l :: ls) (c, b) := by
      simp only [← g4, List.mem_map, key, Prod.mk.injEq]
      rintro ⟨p, hp, rfl, h'⟩
      exact h _ (inv.own p hp).1 h'
    simp only [hs, this, if_false, Nat.add_zero]
  have hall : allTime (.sample t :: ops) = allTime ops + t := rfl
  refine ⟨inv.nub, inv.bl, ?_, ?_, inv.set, inv.own, ⟨inv.tidy.addr, inv.tidy.uniq, ?_⟩, inv.ids, inv.ssz,
    fun h => (hid _).symm ▸ inv.cid h, ?_, ?_, ?_, ?_, ?_, ?_⟩
  · rw [hst, ← hs]
    exact inv.seg.congr fun p _ => hk p
  · show (s.samples.map fun p => (p.1, (dt p.2).id)).Nodup
    rw [List.map_congr_left (g := key s) fun p _ => hk p]
    exact inv.nd
  · intro c
    refine (inv.tidy.sorted c).imp fun {x y} h => ?_
    show (dt x).id < (dt y).id
    rw [hid, hid]; exact h
  · intro b hb
    have hb : s.blocks ≤ b := hb
    obtain ⟨z1, z2, z3, z4⟩ := inv.zero b hb
    refine ⟨?_, z2, ?_, z4⟩
    · show upd s.self top _ b = 0
      rw [upd_ne _ _ (by omega)]; exact z1
    · show upd tm 0 _ b = 0
      have hb0 : b ≠ 0 := by omega
      rw [upd_ne _ _ hb0, e3]
      have htm := inv.tim b
      rw [if_neg hb0] at htm
      rw [z3, if_neg]
      rintro ⟨_, hmem⟩
      obtain ⟨p, hp, rfl⟩ := List.mem_map.mp hmem
      have := inv.cid (inv.own p hp).1
      omega
  · intro b; rw [u1]; exact inv.cnt b
  · intro b
    show upd s.self top _ b = _
    rw [hself]
    simp only [upd]
    split
    · rename_i h; rw [h, inv.slf]
    · rw [inv.slf]; rfl
  · intro b
    show upd tm 0 _ b = _
    rw [hblock, hall]
    have h3 := e3 b
    have h4 := inv.tim b
    simp only [List.not_mem_nil, not_false_eq_true, true_and] at h3
    by_cases hb : b = 0
    · subst hb
      rw [upd_same, h3]
      simp only [if_true] at h4 ⊢
      rw [h4]
      omega
    · rw [upd_ne _ _ hb, h3]
      simp only [hb, if_false] at h4 ⊢
      rw [h4]
      rfl
  · intro c a ha
    have ha : a ∈ s.callees c := ha
    show (dt a).count = callsMade c (dt a).id _ ∧ (dt a).time = callTime c (dt a).id _
    obtain ⟨r1, r2⟩ := inv.rcd ha
    rw [u2, hid, hcall ha, ← r1, ← r2, e2]
    exact ⟨rfl, rfl⟩
  · intro c b h
    have h : ∀ a ∈ s.callees c, (dt a).id ≠ b := h
    have h' : ∀ a ∈ s.callees c, (s.data a).id ≠ b := fun a ha => by rw [← hid]; exact h a ha
    rw [u2, hcall0 h']
    exact inv.non c b h'

/-- The invariant holds after every legal history. -/
theorem run_inv {n ops} (h : Legal n ops) : Inv n ops (run n ops) := by
  induction ops with
  | nil => exact initial_inv n
  | cons op ops ih =>
    have inv := ih h.1
    have hne := stack_ne ops h.1
    cases op with
    | enter b => exact enter_inv inv hne (rp := false) rfl h.2
    | replace b => exact enter_inv inv hne (rp := true) rfl h.2
    | exit => exact exit_inv inv h.2
    | sample t => exact sample_inv inv hne t
    | addBlock => exact addBlock_inv inv

theorem recorded_some {s : St} {c b d} (h : recorded s c b = some d) :
    ∃ a ∈ s.callees c, s.data a = d ∧ d.id = b := by
  have h1 := List.mem_of_find?_eq_some h
  have h2 := List.find?_some h
  obtain ⟨a, ha, e⟩ := List.mem_map.mp h1
  exact ⟨a, ha, e, by simpa using h2⟩

theorem recorded_none {s : St} {c b} (h : recorded s c b = none) :
    ∀ a ∈ s.callees c, (s.data a).id ≠ b := by
  intro a ha e
  have := List.find?_eq_none.mp h (s.data a) (List.mem_map.mpr ⟨a, ha, rfl⟩)
  simp [e] at this

/-- **C39**.  After every well-nested history no array was overrun, the count of a block is how
often it was entered (plus the initial entry of the root block), and the count of a call is how
often it was made; calls without a record were never made. -/
theorem C39_counts {n ops} (h : Legal n ops) :
    (run n ops).ub = false ∧
    (∀ b, (run n ops).count b = entries b ops + if b = 0 then 1 else 0) ∧
    (∀ c b d, recorded (run n ops) c b = some d → d.count = callsMade c b ops) ∧
    (∀ c b, recorded (run n ops) c b = none → callsMade c b ops = 0) := by
  have inv := run_inv h
  refine ⟨inv.nub, inv.cnt, fun c b d hd => ?_, fun c b hn => (inv.non c b (recorded_none hn)).1⟩
  obtain ⟨a, ha, rfl, rfl⟩ := recorded_some hd
  exact (inv.rcd ha).1

theorem selfSum {n ops} (h : Legal n ops) : ∀ m, blocksAfter n ops ≤ m →
    ((List.range m).map fun b => selfTime b ops).sum = allTime ops := by
  induction ops with
  | nil =>
    intro m _
    have : ∀ b, selfTime b [] = 0 := fun _ => rfl
    simp only [this, allTime, tally]
    generalize List.range m = xs
    induction xs <;> simp_all
  | cons op ops ih =>
    intro m hm
    have inv := run_inv h.1
    have ih' := fun m => ih h.1 m
    have hbl : blocksAfter n ops ≤ m := by
      cases op <;> simp only [blocksAfter] at hm <;> omega
    by_cases hop : ∃ t, op = .sample t
    · obtain ⟨t, rfl⟩ := hop
      have hall : allTime (.sample t :: ops) = allTime ops + t := rfl
      rw [hall, ← ih' m hbl]
      have seg := inv.seg
      cases hs : stackAfter ops with
      | nil => exact absurd hs (stack_ne ops h.1)
      | cons l ls =>
      cases hc : (run n ops).calls with
      | nil => rw [hc, hs] at seg; exact seg.elim
      | cons p rest =>
      rw [hc, hs] at seg
      have hcur : l.cur < m := by
        have := inv.ids p (by rw [hc]; simp)
        rw [seg.1, inv.bl] at this
        omega
      have hself : ∀ b, selfTime b (.sample t :: ops) = selfTime b ops + if b = l.cur then t else 0 := by
        intro b
        rw [selfTime, tally_cons]
        congr 1
        simp only [hs, running, List.head?_cons, Option.map_some, Option.some.injEq, sampled]
        simp only [eq_comm]
      simp only [hself]
      have : ∀ (xs : List Nat), xs.Nodup →
          (xs.map fun b => selfTime b ops + if b = l.cur then t else 0).sum =
          (xs.map fun b => selfTime b ops).sum + if l.cur ∈ xs then t else 0 := by
        intro xs hnd
        induction xs with
        | nil => simp
        | cons x xs ih =>
          rw [List.nodup_cons] at hnd
          simp only [List.map_cons, List.sum_cons, ih hnd.2, List.mem_cons]
          by_cases e : x = l.cur
          · rw [e] at hnd ⊢
            simp only [if_true, hnd.1, if_false, true_or]
            omega
          · have e' : ¬ l.cur = x := fun h => e h.symm
            simp only [e, e', if_false, false_or]
            omega
      rw [this _ List.nodup_range, if_pos (List.mem_range.mpr hcur)]
    · have : (∀ x, selfTime x (op :: ops) = selfTime x ops) ∧ allTime (op :: ops) = allTime ops := by
        simp only [selfTime, allTime, tally_cons]
        cases op <;> simp_all [sampled]
      rw [this.2, ← ih' m hbl]
      simp only [this.1]

/-- **C40**.  The self time of a block is the time sampled while it was running, and the self
times of all blocks add up to the time sampled.  The time of a block (other than the root) is the
time sampled while it was anywhere on the stack, and the time of a call is the time sampled while
that call was anywhere on the stack, each sample counting once. -/
theorem C40_times {n ops} (h : Legal n ops) :
    (∀ b, (run n ops).self b = selfTime b ops) ∧
    ((List.range (run n ops).blocks).map (run n ops).self).sum = allTime ops ∧
    (∀ b, b ≠ 0 → (run n ops).time b = blockTime b ops) ∧
    (∀ c b d, recorded (run n ops) c b = some d → d.time = callTime c b ops) ∧
    (∀ c b, recorded (run n ops) c b = none → callTime c b ops = 0) := by
  have inv := run_inv h
  refine ⟨inv.slf, ?_, fun b hb => ?_, fun c b d hd => ?_, fun c b hn => (inv.non c b (recorded_none hn)).2⟩
  · rw [inv.bl, show (run n ops).self = fun b => selfTime b ops from funext inv.slf]
    exact selfSum h _ (Nat.le_refl _)
  · rw [inv.tim, if_neg hb, Nat.add_zero]
  · obtain ⟨a, ha, rfl, rfl⟩ := recorded_some hd
    exact (inv.rcd ha).2

/-- The call list of a caller, as the report sees it. -/
def callList (s : St) (c : Nat) : List Data := (s.callees c).map s.data

/-- **C41**.  After every well-nested history each call list is strictly sorted by callee, and a
lookup returns the address of an entry of the caller's list that is for this callee; if there was
an entry nothing changes, and otherwise exactly one entry with zeros is inserted, the list remains
sorted and the other lists are unchanged. -/
theorem C41_lookup {n ops} (h : Legal n ops) (caller callee : Nat) :
    let s := run n ops
    let r := getCallData s caller callee
    (callList s caller).Pairwise (fun x y => x.id < y.id) ∧
    (callList r.1 caller).Pairwise (fun x y => x.id < y.id) ∧
    r.2 ∈ r.1.callees caller ∧ (r.1.data r.2).id = callee ∧
    ((∃ x ∈ callList s caller, x.id = callee) → r.1 = s) ∧
    ((∀ x ∈ callList s caller, x.id ≠ callee) →
      r.1.data r.2 = ⟨callee, 0, 0⟩ ∧
      ∃ pre post, callList s caller = pre ++ post ∧ callList r.1 caller = pre ++ [⟨callee, 0, 0⟩] ++ post ∧
        ∀ c, c ≠ caller → callList r.1 c = callList s c) := by
  intro s r
  have t := (run_inv h).tidy
  have L := getCallData_spec t caller callee
  have hsorted : ∀ {s : St}, Tidy s → (callList s caller).Pairwise (fun x y => x.id < y.id) := by
    intro s t
    rw [callList, List.pairwise_map]
    exact t.sorted caller
  refine ⟨hsorted t, hsorted L.tidy, L.mem, L.isId, fun ⟨x, hx, e⟩ => ?_, fun hno => ?_⟩
  · rcases L.old with ⟨e, _⟩ | ⟨hno, _⟩
    · exact e
    · obtain ⟨a, ha, rfl⟩ := List.mem_map.mp hx
      exact absurd e (hno a ha)
  · have hno' : ∀ a ∈ s.callees caller, (s.data a).id ≠ callee := fun a ha =>
      hno _ (List.mem_map.mpr ⟨a, ha, rfl⟩)
    rcases L.old with ⟨e, hm⟩ | ⟨_, e1, e2, _, e4, e5⟩
    · have := L.isId
      rw [e] at this
      exact absurd this (hno' _ hm)
    · refine ⟨by show r.1.data r.2 = _; rw [show r.1.data = _ from e2]; exact upd_same _ _ _, ?_⟩
      have hold : ∀ {c a}, a ∈ s.callees c → r.1.data a = s.data a := by
        intro c a ha
        show r.1.data a = _
        rw [show r.1.data = _ from e2, upd_ne]
        rw [e1]
        exact Nat.ne_of_lt (t.addr ha)
      have hmap : ∀ {c} (xs : List Nat), (∀ a ∈ xs, a ∈ s.callees c) → xs.map r.1.data = xs.map s.data :=
        fun xs hx => List.map_congr_left fun a ha => hold (hx a ha)
      have : ∃ lo, r.1.callees caller = (s.callees caller).take lo ++ r.2 :: (s.callees caller).drop lo := by
        revert e1
        show r.2 = s.nextData → _
        simp only [r, getCallData]
        split
        · rename_i i hi
          intro e1
          exfalso
          have hm := L.mem
          have : (getCallData s caller callee).1 = s := by simp only [getCallData, hi]
          rw [this] at hm
          have h2 : (getCallData s caller callee).2 = s.nextData := by simp only [getCallData, hi]; exact e1
          rw [h2] at hm
          exact absurd (t.addr hm) (Nat.lt_irrefl _)
        · rename_i lo _
          intro _
          exact ⟨lo, by dsimp only; rw [upd_same, shift_eq]⟩
      obtain ⟨lo, hlo⟩ := this
      refine ⟨((s.callees caller).take lo).map s.data, ((s.callees caller).drop lo).map s.data, ?_, ?_, ?_⟩
      · rw [callList, ← List.map_append, List.take_append_drop]
      · rw [callList, hlo, List.map_append, List.map_cons, hmap (c := caller) _ fun a => List.mem_of_mem_take,
          hmap (c := caller) _ fun a => List.mem_of_mem_drop, show r.1.data = _ from e2]
        rw [show r.2 = (getCallData s caller callee).2 from rfl, upd_same]
        simp
      · intro c hc
        rw [callList, e4 c hc]
        exact hmap _ fun a ha => ha

/-- **C42**.  The sort used by the report gives a permutation sorted by time, in either order, in
which elements of equal time keep their order; for every content of the scratch buffer. -/
theorem C42_sort (data scratch : List Data) (h : scratch.length = data.length) :
    ((sortData ascending data scratch).Perm data ∧
     (sortData ascending data scratch).Pairwise (fun x y => x.time ≤ y.time) ∧
     ∀ k, (sortData ascending data scratch).filter (·.time == k) = data.filter (·.time == k)) ∧
    ((sortData descending data scratch).Perm data ∧
     (sortData descending data scratch).Pairwise (fun x y => y.time ≤ x.time) ∧
     ∀ k, (sortData descending data scratch).filter (·.time == k) = data.filter (·.time == k)) := by
  constructor
  · obtain ⟨_, _, h1, h2, h3⟩ := msort_spec (le := ascending) (by simp [ascending]; omega)
      (by simp [ascending]; omega) (by simp [ascending]; omega) data.length true data scratch rfl h
    refine ⟨h1, h2.imp fun h => ?_, h3⟩
    simpa [ascending] using h
  · obtain ⟨_, _, h1, h2, h3⟩ := msort_spec (le := descending) (by simp [descending]; omega)
      (by simp [descending]; omega) (by simp [descending]; omega) data.length true data scratch rfl h
    refine ⟨h1, h2.imp fun h => ?_, h3⟩
    simpa [descending] using h

theorem onStack_enters {ops : List Op} {c b} (h : OnStack (stackAfter ops) (c, b)) :
    ∃ op ∈ ops, Enters b op := by
  induction ops with
  | nil => obtain ⟨l, hl, he⟩ := h; simp [stackAfter] at hl; subst hl; cases he
  | cons op ops ih =>
    cases hs : stackAfter ops with
    | nil =>
      have : stackAfter (op :: ops) = [] := by cases op <;> simp [stackAfter, hs]
      rw [this] at h
      obtain ⟨l, hl, _⟩ := h
      cases hl
    | cons l ls =>
      rw [hs] at ih
      by_cases hop : Enters b op
      · exact ⟨op, by simp, hop⟩
      · have : OnStack (l :: ls) (c, b) := by
          obtain ⟨l', hl', he⟩ := h
          simp only [OnStack, List.mem_cons]
          cases op with
          | enter b' =>
            simp only [stackAfter, hs, List.mem_cons] at hl'
            rcases hl' with rfl | h
            · simp only [List.mem_cons, List.not_mem_nil, or_false, Prod.mk.injEq] at he
              exact absurd (.inl (by rw [he.2])) hop
            · exact ⟨l', h, he⟩
          | replace b' =>
            simp only [stackAfter, hs, List.mem_cons] at hl'
            rcases hl' with rfl | h
            · simp only [List.mem_cons, Prod.mk.injEq] at he
              rcases he with he | he
              · exact absurd (.inr (by rw [he.2])) hop
              · exact ⟨l, .inl rfl, he⟩
            · exact ⟨l', .inr h, he⟩
          | exit =>
            simp only [stackAfter, hs] at hl'
            exact ⟨l', .inr hl', he⟩
          | sample t =>
            simp only [stackAfter, hs, List.mem_cons] at hl'
            exact ⟨l', hl', he⟩
          | addBlock =>
            simp only [stackAfter, hs, List.mem_cons] at hl'
            exact ⟨l', hl', he⟩
        obtain ⟨op', ho, hE⟩ := ih this
        exact ⟨op', by simp [ho], hE⟩

theorem blockTime_zero {ops : List Op} {b} (h : ∀ op ∈ ops, ¬ Enters b op) : blockTime b ops = 0 := by
  induction ops with
  | nil => rfl
  | cons op ops ih =>
    rw [blockTime, tally_cons]
    have h1 := ih fun op ho => h op (by simp [ho])
    have h2 : ¬ BlockOn (stackAfter ops) b := by
      rintro ⟨c, hc⟩
      obtain ⟨op', ho, hE⟩ := onStack_enters hc
      exact h op' (by simp [ho]) hE
    rw [if_neg h2]
    exact h1

theorem ranges_ge : ∀ (sizes : List Nat) (n : Nat) r, r ∈ moduleRanges n sizes → n ≤ r.1 := by
  intro sizes
  induction sizes with
  | nil => intro n r h; cases h
  | cons m sizes ih =>
    intro n r h
    rcases List.mem_cons.mp h with rfl | h
    · exact Nat.le_refl _
    · have := ih _ _ h; omega

/-- **C43**.  In a run of a program linked from generated code, the time of the root block is
exactly the time sampled. -/
theorem C43_generated {n ops sizes} (h : Legal n ops) (hr : RunOf (linkGenerated sizes) ops) :
    (run n ops).time 0 = allTime ops := by
  rw [(run_inv h).tim, if_pos rfl, blockTime_zero, Nat.zero_add]
  intro op ho hE
  rcases hr op ho 0 hE with h | ⟨r, hr, h, _⟩
  · exact absurd h (by simp [linkGenerated])
  · have := ranges_ge _ _ _ hr
    omega

/-- In every history the root is charged once per sample, and once more for samples taken while
block 0 was entered. -/
theorem C43_root {n ops} (h : Legal n ops) :
    (run n ops).time 0 = allTime ops + blockTime 0 ops := by
  rw [(run_inv h).tim, if_pos rfl, Nat.add_comm]

/-- **C43**, violated: the main function of a program linked for the interpreter enters block 0, so
each sample taken during the run is charged to the root twice. -/
theorem C43_violated (sizes : List Nat) (t : Nat) :
    let ops := [.sample t, .enter (linkInterpreted sizes).main]
    RunOf (linkInterpreted sizes) ops ∧ Legal (1 + sizes.sum) ops ∧ allTime ops = t ∧
      (run (1 + sizes.sum) ops).time 0 = 2 * t := by
  intro ops
  have hl : Legal (1 + sizes.sum) ops := ⟨⟨trivial, Nat.succ_pos _⟩, trivial⟩
  have ha : allTime ops = t := by simp [ops, allTime, tally, sampled]
  refine ⟨?_, hl, ha, ?_⟩
  · intro op ho b hE
    simp only [ops, List.mem_cons, List.not_mem_nil, or_false] at ho
    rcases ho with rfl | rfl
    · simp [Enters] at hE
    · simp [Enters] at hE; exact .inl hE.symm
  · rw [C43_root hl, ha]
    have hb : BlockOn (stackAfter [.enter 0]) 0 := ⟨0, ⟨0, [(0, 0)]⟩, by simp [stackAfter], by simp⟩
    have : blockTime 0 ops = t := by
      rw [blockTime, tally_cons, if_pos (show BlockOn (stackAfter [.enter (linkInterpreted sizes).main]) 0 from hb)]
      simp [sampled, tally]
    omega

/-! ### The theorems are about something -/

/-- A history with recursion, a tail call, a block added on the way and samples at several points
(newest first). -/
def history : List Op :=
  [.sample 100, .exit, .sample 10, .enter 3, .exit, .addBlock, .sample 7, .replace 2, .enter 1, .sample 5,
   .enter 2, .enter 1]

example : Legal 2 history := by simp [history, Legal, blocksAfter, stackAfter]

/-- Block 1 calls 2, which calls 1 which is replaced by 2: the time of the call from 1 to 2 counts
the sample of 7 once although the call is on the stack twice. -/
example : recorded (run 2 history) 1 2 = some ⟨2, 2, 122⟩ ∧ recorded (run 2 history) 2 1 = some ⟨1, 1, 7⟩ ∧
    recorded (run 2 history) 2 3 = some ⟨3, 1, 10⟩ ∧ (run 2 history).time 2 = 122 ∧
    (run 2 history).self 2 = 112 ∧ (run 2 history).time 0 = 122 ∧ recorded (run 2 history) 3 2 = none := by
  decide +kernel

example : RunOf (linkGenerated [1, 1]) history ∧ (linkGenerated [1, 1]).ranges = [(2, 1), (3, 1)] := by
  refine ⟨?_, rfl⟩
  intro op ho b hE
  simp only [history, List.mem_cons, List.not_mem_nil, or_false] at ho
  simp only [Enters] at hE
  rcases ho with rfl | rfl | rfl | rfl | rfl | rfl | rfl | rfl | rfl | rfl | rfl | rfl <;>
    simp at hE <;> subst hE <;> simp [Linked.Has, linkGenerated, moduleRanges]

example : sortData descending [⟨1, 0, 5⟩, ⟨2, 0, 9⟩, ⟨3, 0, 5⟩] [⟨0, 0, 0⟩, ⟨0, 0, 0⟩, ⟨0, 0, 0⟩] =
    [⟨2, 0, 9⟩, ⟨1, 0, 5⟩, ⟨3, 0, 5⟩] := by
  simp [sortData, msort, merge, descending]

end Verif.Profile
