import Verif.Compile.Model
import Verif.Compile.Scoped
/-
Compilation succeeds on expressions in scope, and does the bookkeeping of slots right.
-/
namespace Verif.Compile

def isLoc : Var → Bool
  | .loc _ => true
  | _ => false

/-- Counts with one more for each listed variable. -/
def plus (cnt : Var → Nat) (vs : List Var) : Var → Nat := fun v => cnt v + vs.count v

theorem plus_nil (cnt) : plus cnt [] = cnt := by funext v; simp [plus]

theorem plus_plus (cnt vs ws) : plus (plus cnt vs) ws = plus cnt (vs ++ ws) := by
  funext v; simp [plus, Nat.add_assoc]

theorem plus_comm (cnt vs ws) : plus (plus cnt vs) ws = plus (plus cnt ws) vs := by
  funext v; simp only [plus]; omega

theorem plus_perm {cnt vs ws} (h : vs.Perm ws) : plus cnt vs = plus cnt ws := by
  funext v; simp only [plus, h.count_eq]

theorem plus_ge (cnt vs v) : cnt v ≤ plus cnt vs v := Nat.le_add_right _ _

theorem upd_plus (cnt : Var → Nat) (v) : upd cnt v (cnt v + 1) = plus cnt [v] := by
  funext w
  simp only [upd, plus, List.count_singleton]
  by_cases h : w = v
  · subst h; simp
  · rw [if_neg h]
    have : (v == w) = false := by simpa using fun h' => h h'.symm
    simp [this]

/-- The scope is in order. -/
structure SInv (sc : Scope) : Prop where
  slots : ∀ i, 0 < sc.cnt (.loc i) → i < sc.nlocals
  vars : ∀ v, some v ∈ sc.vars → 0 < sc.cnt v
  statics : ∀ i, i < sc.nstatics → 0 < sc.cnt (.static i)
  args : ∀ i, i < sc.nargs → 0 < sc.cnt (.arg i)

/-- A variable that may be released once more than it was counted in `cnt`. -/
def Rel (cnt : Var → Nat) (v : Var) : Prop := isLoc v = true ∨ 0 < cnt v

/-- What stays the same in a scope. -/
structure Same (sc sc' : Scope) : Prop where
  nstatics : sc'.nstatics = sc.nstatics
  nargs : sc'.nargs = sc.nargs
  vars : sc'.vars = sc.vars
  block : sc'.block = sc.block

/-- A step of the compilation that leaves the listed variables counted once more. -/
structure Adds (sc sc' : Scope) (n : Nat) (vs : List Var) : Prop where
  same : Same sc sc'
  nlocals : sc.nlocals ≤ sc'.nlocals
  pc : sc'.pc = sc.pc + n
  cnt : sc'.cnt = plus sc.cnt vs
  slots : (∀ i, 0 < sc.cnt (.loc i) → i < sc.nlocals) → ∀ i, 0 < sc'.cnt (.loc i) → i < sc'.nlocals
  rel : ∀ v ∈ vs, Rel sc.cnt v

theorem Same.refl (sc) : Same sc sc := ⟨rfl, rfl, rfl, rfl⟩
theorem Same.trans {a b c} (h : Same a b) (h' : Same b c) : Same a c :=
  ⟨h'.nstatics.trans h.nstatics, h'.nargs.trans h.nargs, h'.vars.trans h.vars, h'.block.trans h.block⟩

theorem Adds.refl (sc : Scope) : Adds sc sc 0 [] :=
  ⟨.refl _, Nat.le_refl _, rfl, (plus_nil _).symm, id, by simp⟩

theorem Rel.mono {c c' : Var → Nat} {v} (h : Rel c v) (hc : ∀ v, c v ≤ c' v) : Rel c' v :=
  h.imp id fun h => Nat.lt_of_lt_of_le h (hc v)

theorem Adds.inv {sc sc' n vs} (h : Adds sc sc' n vs) (i : SInv sc) : SInv sc' where
  slots := h.slots i.slots
  vars := fun v hv => by
    rw [h.same.vars] at hv; rw [h.cnt]; exact Nat.lt_of_lt_of_le (i.vars v hv) (plus_ge _ _ _)
  statics := fun j hj => by
    rw [h.same.nstatics] at hj; rw [h.cnt]; exact Nat.lt_of_lt_of_le (i.statics j hj) (plus_ge _ _ _)
  args := fun j hj => by
    rw [h.same.nargs] at hj; rw [h.cnt]; exact Nat.lt_of_lt_of_le (i.args j hj) (plus_ge _ _ _)

/-- A variable that may be released after some were added may be released before, or is one of
those added, which may be. -/
theorem Adds.trans {a b c n m vs ws} (h : Adds a b n vs) (h' : Adds b c m ws) : Adds a c (n + m) (vs ++ ws) where
  same := h.same.trans h'.same
  nlocals := Nat.le_trans h.nlocals h'.nlocals
  pc := by rw [h'.pc, h.pc]; omega
  cnt := by rw [h'.cnt, h.cnt, plus_plus]
  slots := fun hs => h'.slots (h.slots hs)
  rel := fun v hv => by
    rcases List.mem_append.mp hv with hv | hv
    · exact h.rel v hv
    · rcases h'.rel v hv with h1 | h1
      · exact .inl h1
      · rw [h.cnt] at h1
        by_cases hm : v ∈ vs
        · exact h.rel v hm
        · simp only [plus, List.count_eq_zero.mpr hm, Nat.add_zero] at h1
          exact .inr h1

theorem Adds.perm {a b n vs ws} (h : Adds a b n vs) (hp : vs.Perm ws) : Adds a b n ws :=
  ⟨h.same, h.nlocals, h.pc, h.cnt.trans (plus_perm hp), h.slots, fun v hv => h.rel v (hp.mem_iff.mpr hv)⟩

theorem Adds.emit (sc : Scope) : Adds sc sc.emit 1 [] :=
  ⟨⟨rfl, rfl, rfl, rfl⟩, Nat.le_refl _, rfl, (plus_nil _).symm, id, by simp⟩

theorem Adds.reset (sc : Scope) : Adds sc sc.reset 0 [] :=
  ⟨⟨rfl, rfl, rfl, rfl⟩, Nat.le_refl _, rfl, (plus_nil _).symm, id, by simp⟩

theorem Adds.prof (sc : Scope) (p) : Adds sc { sc with prof := p } 0 [] :=
  ⟨⟨rfl, rfl, rfl, rfl⟩, Nat.le_refl _, rfl, (plus_nil _).symm, id, by simp⟩

theorem Adds.enterBlock (r bl) (sc : Scope) : Adds sc (Compile.enterBlock r bl sc).2 0 [] := Adds.prof _ _

theorem Adds.exitBlock (e bl) (sc : Scope) : Adds sc (Compile.exitBlock e bl sc).2 0 [] := by
  unfold Compile.exitBlock
  cases e
  · exact Adds.prof _ _
  · exact .refl _

theorem firstFree_free {cnt : Var → Nat} {n} (h : ∀ i, 0 < cnt (.loc i) → i < n) : cnt (.loc (firstFree cnt n)) = 0 := by
  unfold firstFree
  cases hf : (List.range n).find? (fun i => decide (cnt (.loc i) = 0)) with
  | none =>
    simp only [Option.getD_none]
    exact Nat.eq_zero_of_not_pos fun hp => absurd (h n hp) (Nat.lt_irrefl _)
  | some i => simpa using List.find?_some hf

theorem firstFree_le (cnt : Var → Nat) (n) : firstFree cnt n ≤ n := by
  unfold firstFree
  cases hf : (List.range n).find? (fun i => decide (cnt (.loc i) = 0)) with
  | none => simp
  | some i => exact Nat.le_of_lt (List.mem_range.mp (List.mem_of_find?_eq_some hf))

theorem newLocal_nlocals (sc : Scope) : (newLocal sc).2.nlocals =
    if firstFree sc.cnt sc.nlocals = sc.nlocals then sc.nlocals + 1 else sc.nlocals := rfl

theorem newLocal_cnt {sc : Scope} (hs : ∀ i, 0 < sc.cnt (.loc i) → i < sc.nlocals) :
    sc.cnt (.loc (newLocal sc).1) = 0 := firstFree_free hs

theorem newLocal_adds {sc : Scope} (hs : ∀ i, 0 < sc.cnt (.loc i) → i < sc.nlocals) :
    Adds sc (newLocal sc).2 0 [.loc (newLocal sc).1] where
  same := ⟨rfl, rfl, rfl, rfl⟩
  nlocals := by
    rw [newLocal_nlocals]
    split <;> omega
  pc := rfl
  cnt := by
    show upd sc.cnt _ 1 = _
    rw [← upd_plus, newLocal_cnt hs]; rfl
  slots := fun _ i hi => by
    rw [newLocal_nlocals]
    have hle := firstFree_le sc.cnt sc.nlocals
    by_cases h : i = firstFree sc.cnt sc.nlocals
    · subst h; split <;> omega
    · have hi : 0 < upd sc.cnt (.loc (firstFree sc.cnt sc.nlocals)) 1 (.loc i) := hi
      rw [upd, if_neg (by simpa using h)] at hi
      have := hs i hi
      split <;> omega
  rel := by intro v hv; simp at hv; subst hv; exact .inl rfl

theorem newLocal_lt (sc : Scope) : (newLocal sc).1 < (newLocal sc).2.nlocals := by
  rw [newLocal_nlocals]; show firstFree sc.cnt sc.nlocals < _
  have := firstFree_le sc.cnt sc.nlocals
  split <;> omega

/-! Releasing. -/

/-- A step that takes the listed variables off the counts. -/
structure Takes (sc sc' : Scope) (vs : List Var) : Prop where
  same : Same sc sc'
  nlocals : sc'.nlocals = sc.nlocals
  pc : sc'.pc = sc.pc
  prof : sc'.prof = sc.prof
  cnt : sc.cnt = plus sc'.cnt vs

theorem release_ok {sc : Scope} {cnt v} (h : sc.cnt = plus cnt [v]) (hr : Rel cnt v) :
    ∃ sc', release v sc = some sc' ∧ Takes sc sc' [v] ∧ sc'.cnt = cnt := by
  have hv : sc.cnt v = cnt v + 1 := by rw [h]; simp [plus]
  have hu : ∀ n, n = cnt v → upd sc.cnt v n = cnt := by
    rintro _ rfl
    funext w
    unfold upd
    split
    · next h => rw [h]
    · next hw =>
      rw [h]
      have : (v == w) = false := by simpa using fun h' => hw h'.symm
      simp [plus, List.count_singleton, this]
  unfold release
  rw [hv]
  cases hc : cnt v with
  | zero =>
    rcases hr with h1 | h1
    · cases v with
      | loc i =>
        refine ⟨_, rfl, ⟨⟨rfl, rfl, rfl, rfl⟩, rfl, rfl, rfl, ?_⟩, ?_⟩
        · show sc.cnt = plus (upd sc.cnt _ 0) _
          rw [hu 0 hc.symm]; exact h
        · exact hu 0 hc.symm
      | _ => simp [isLoc] at h1
    · omega
  | succ n =>
    refine ⟨_, rfl, ⟨⟨rfl, rfl, rfl, rfl⟩, rfl, rfl, rfl, ?_⟩, ?_⟩
    · show sc.cnt = plus (upd sc.cnt _ (n+1)) _
      rw [hu _ hc.symm]; exact h
    · exact hu _ hc.symm

theorem releaseAll_ok {cnt} : (vs : List Var) → {sc : Scope} → sc.cnt = plus cnt vs → (∀ v ∈ vs, Rel cnt v) →
    ∃ sc', releaseAll vs sc = some sc' ∧ Takes sc sc' vs ∧ sc'.cnt = cnt
  | [], sc, h, _ => ⟨sc, rfl, ⟨.refl _, rfl, rfl, rfl, (plus_nil _).symm⟩, by rw [h, plus_nil]⟩
  | v :: vs, sc, h, hr => by
    have h1 : sc.cnt = plus (plus cnt vs) [v] := by
      rw [h, plus_plus]; exact plus_perm (List.perm_append_comm (l₁ := [v]))
    obtain ⟨sc1, e1, t1, c1⟩ := release_ok h1 ((hr v (by simp)).mono fun w => plus_ge _ _ _)
    obtain ⟨sc2, e2, t2, c2⟩ := releaseAll_ok vs c1 fun w hw => hr w (List.mem_cons_of_mem _ hw)
    refine ⟨sc2, by simp [releaseAll, e1, e2], ⟨t1.same.trans t2.same, t2.nlocals.trans t1.nlocals, t2.pc.trans t1.pc, t2.prof.trans t1.prof, ?_⟩, c2⟩
    rw [h, c2]

/-- Releasing variables that were added. -/
theorem Adds.takes {a b c : Scope} {n vs ws} (h : Adds a b n (vs ++ ws)) (ht : Takes b c vs) (hc : c.cnt = plus a.cnt ws) :
    Adds a c n ws where
  same := h.same.trans ht.same
  nlocals := by rw [ht.nlocals]; exact h.nlocals
  pc := by rw [ht.pc]; exact h.pc
  cnt := hc
  slots := fun hs i hi => by
    rw [ht.nlocals]
    refine h.slots hs i ?_
    rw [ht.cnt]; exact Nat.lt_of_lt_of_le hi (plus_ge _ _ _)
  rel := fun v hv => h.rel v (List.mem_append_right _ hv)

/-- Releasing all of `vs`. -/
theorem Adds.releaseAll {a b : Scope} {n vs ws} (h : Adds a b n (vs ++ ws)) :
    ∃ c, Compile.releaseAll vs b = some c ∧ Adds a c n ws := by
  have h1 : b.cnt = plus (plus a.cnt ws) vs := by
    rw [h.cnt, plus_plus]; exact plus_perm List.perm_append_comm
  obtain ⟨c, e, t, hc⟩ := releaseAll_ok vs h1 fun v hv => (h.rel v (List.mem_append_left _ hv)).mono fun _ => plus_ge _ _ _
  exact ⟨c, e, h.takes t hc⟩

theorem Adds.release {a b : Scope} {n v ws} (h : Adds a b n (v :: ws)) : ∃ c, Compile.release v b = some c ∧ Adds a c n ws := by
  obtain ⟨c, e, t⟩ := Adds.releaseAll (vs := [v]) (ws := ws) h
  refine ⟨c, ?_, t⟩
  simpa [Compile.releaseAll] using e

/-! Variables. -/

def avail (sc : Scope) : List Bool := sc.vars.map (·.isSome)

theorem getVar_ok {sc : Scope} {v : Var} (i : SInv sc) (h : v.Ok sc.nstatics sc.nargs (avail sc)) :
    ∃ w, getVar sc v = some w ∧ 0 < sc.cnt w := by
  cases v with
  | static j => exact ⟨.static j, if_pos h, i.statics j h⟩
  | arg j => exact ⟨.arg j, if_pos h, i.args j h⟩
  | loc j =>
    simp only [Var.Ok, avail, List.getElem?_map] at h
    cases hj : sc.vars[j]? with
    | none => simp [hj] at h
    | some o =>
      cases o with
      | none => simp [hj] at h
      | some w => exact ⟨w, by simp [getVar, hj], i.vars w (List.mem_of_getElem? hj)⟩

theorem getVars_ok {sc : Scope} (i : SInv sc) : (vs : List Var) → (∀ v ∈ vs, v.Ok sc.nstatics sc.nargs (avail sc)) →
    ∃ ws, vs.mapM (getVar sc) = some ws ∧ ∀ w ∈ ws, 0 < sc.cnt w
  | [], _ => ⟨[], rfl, by simp⟩
  | v :: vs, h => by
    obtain ⟨w, h1, h2⟩ := getVar_ok i (h v (by simp))
    obtain ⟨ws, h3, h4⟩ := getVars_ok i vs fun v hv => h v (List.mem_cons_of_mem _ hv)
    refine ⟨w :: ws, by simp [List.mapM_cons, h1, h3], ?_⟩
    intro x hx
    rcases List.mem_cons.mp hx with rfl | hx
    · exact h2
    · exact h4 x hx

theorem compileExit_adds (exit v) (sc : Scope) : Adds sc (compileExit exit v sc).2 (compileExit exit v sc).1.length [] := by
  unfold compileExit
  cases exit
  · exact .refl _
  · exact .emit _

end Verif.Compile
