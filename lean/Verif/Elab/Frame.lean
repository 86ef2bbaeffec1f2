import Verif.Elab.Scopes
/-
What checking an expression does to the scopes: it looks variables up.  Checking a type leaves them
alone.
-/
namespace Verif.Elab
open Types
open Compile (Var Tc Tcs Flds Brs)

theorem TM.bind_ok {α β : Type} {m : TM α} {f : α → TM β} {s s' : S} {b : β} :
    (m >>= f) s = .ok (s', b) ↔ ∃ s1 a, m s = .ok (s1, a) ∧ f a s1 = .ok (s', b) := by
  show R.bind (m s) _ = _ ↔ _
  rw [R.bind'_ok]
  constructor
  · rintro ⟨⟨s1, a⟩, h1, h2⟩; exact ⟨s1, a, h1, h2⟩
  · rintro ⟨s1, a, h1, h2⟩; exact ⟨(s1, a), h1, h2⟩

theorem TM.pure_ok {α : Type} {a b : α} {s s' : S} : (pure a : TM α) s = .ok (s', b) ↔ s' = s ∧ b = a := by
  show R.ok (s, a) = _ ↔ _
  simp [eq_comm]

theorem TM.crash_ok {α : Type} {b : α} {s s' : S} : (crash : TM α) s = .ok (s', b) ↔ False := by
  simp [crash]

theorem TM.readH_ok {α : Type} {f : Heap → R α} {b : α} {s s' : S} : readH f s = .ok (s', b) ↔ s' = s ∧ f s.heap = .ok b := by
  unfold readH
  rw [R.bind'_ok]
  constructor
  · rintro ⟨a, h1, h2⟩; cases h2; exact ⟨rfl, h1⟩
  · rintro ⟨rfl, h1⟩; exact ⟨b, h1, rfl⟩

theorem TM.liftH_ok {α : Type} {f : Heap → R (Heap × α)} {b : α} {s s' : S} :
    liftH f s = .ok (s', b) ↔ ∃ h, s' = { s with heap := h } ∧ f s.heap = .ok (h, b) := by
  unfold liftH
  rw [R.bind'_ok]
  constructor
  · rintro ⟨⟨h, a⟩, h1, h2⟩; cases h2; exact ⟨h, rfl, h1⟩
  · rintro ⟨h, rfl, h1⟩; exact ⟨(h, b), h1, rfl⟩

theorem TM.alloc_ok {n : Node} {p : Ptr} {s s' : S} :
    alloc n s = .ok (s', p) ↔ s' = { s with heap := (new s.heap n).1 } ∧ p = (new s.heap n).2 := by
  unfold alloc
  rw [TM.liftH_ok]
  constructor
  · rintro ⟨h, rfl, h1⟩; cases h1; exact ⟨rfl, rfl⟩
  · rintro ⟨rfl, rfl⟩; exact ⟨_, rfl, rfl⟩

theorem TM.readH_bind {α β : Type} {f : Heap → R α} {g : α → TM β} {b : β} {s s' : S} :
    (readH f >>= g) s = .ok (s', b) ↔ ∃ a, f s.heap = .ok a ∧ g a s = .ok (s', b) := by
  rw [TM.bind_ok]
  constructor
  · rintro ⟨s1, a, h1, h2⟩
    obtain ⟨rfl, h3⟩ := TM.readH_ok.mp h1
    exact ⟨a, h3, h2⟩
  · rintro ⟨a, h1, h2⟩; exact ⟨s, a, TM.readH_ok.mpr ⟨rfl, h1⟩, h2⟩

theorem TM.liftH_bind {α β : Type} {f : Heap → R (Heap × α)} {g : α → TM β} {b : β} {s s' : S} :
    (liftH f >>= g) s = .ok (s', b) ↔ ∃ h a, f s.heap = .ok (h, a) ∧ g a { s with heap := h } = .ok (s', b) := by
  rw [TM.bind_ok]
  constructor
  · rintro ⟨s1, a, h1, h2⟩
    obtain ⟨h, rfl, h3⟩ := TM.liftH_ok.mp h1
    exact ⟨h, a, h3, h2⟩
  · rintro ⟨h, a, h1, h2⟩; exact ⟨_, a, TM.liftH_ok.mpr ⟨h, rfl, h1⟩, h2⟩

theorem TM.alloc_bind {β : Type} {n : Node} {g : Ptr → TM β} {b : β} {s s' : S} :
    (alloc n >>= g) s = .ok (s', b) ↔ g (new s.heap n).2 { s with heap := (new s.heap n).1 } = .ok (s', b) := by
  rw [TM.bind_ok]
  constructor
  · rintro ⟨s1, a, h1, h2⟩
    obtain ⟨rfl, rfl⟩ := TM.alloc_ok.mp h1
    exact h2
  · intro h; exact ⟨_, _, TM.alloc_ok.mpr ⟨rfl, rfl⟩, h⟩

/-- From one state to a later one. -/
structure Step (s s' : S) : Prop where
  ext : Ext s.scopes s'.scopes
  inv : Inv s.scopes → Inv s'.scopes
  stat : Stat s.scopes → Stat s'.scopes
  heap : ∀ H, HGood H s.heap → HGood H s'.heap

theorem Step.refl (s : S) : Step s s := ⟨.refl _, id, id, fun _ => id⟩
theorem Step.trans {a b c : S} (h : Step a b) (h' : Step b c) : Step a c :=
  ⟨h.ext.trans h'.ext, fun i => h'.inv (h.inv i), fun i => h'.stat (h.stat i), fun H i => h'.heap H (h.heap H i)⟩

/-- It only does lookups. -/
def Pres {α : Type} (m : TM α) : Prop := ∀ s s' a, m s = .ok (s', a) → Step s s'

/-- It leaves the scopes alone. -/
def Quiet {α : Type} (m : TM α) : Prop := ∀ s s' a, m s = .ok (s', a) → s'.scopes = s.scopes ∧ (∀ H, HGood H s.heap → HGood H s'.heap)

theorem Quiet.pres {α : Type} {m : TM α} (h : Quiet m) : Pres m := by
  intro s s' a e
  obtain ⟨h1, h2⟩ := h s s' a e
  exact ⟨by rw [h1]; exact .refl _, by rw [h1]; exact id, by rw [h1]; exact id, h2⟩

theorem Pres.bind {α β : Type} {m : TM α} {f : α → TM β} (hm : Pres m) (hf : ∀ a, Pres (f a)) : Pres (m >>= f) := by
  intro s s' b e
  obtain ⟨s1, a, e1, e2⟩ := TM.bind_ok.mp e
  exact (hm _ _ _ e1).trans (hf a _ _ _ e2)

theorem Quiet.bind {α β : Type} {m : TM α} {f : α → TM β} (hm : Quiet m) (hf : ∀ a, Quiet (f a)) : Quiet (m >>= f) := by
  intro s s' b e
  obtain ⟨s1, a, e1, e2⟩ := TM.bind_ok.mp e
  obtain ⟨h1, h2⟩ := hm _ _ _ e1
  obtain ⟨h3, h4⟩ := hf a _ _ _ e2
  exact ⟨h3.trans h1, fun H i => h4 H (h2 H i)⟩

theorem Quiet.pure {α : Type} (a : α) : Quiet (Pure.pure a : TM α) := by
  intro s s' b e
  obtain ⟨rfl, _⟩ := TM.pure_ok.mp e
  exact ⟨rfl, fun _ => id⟩

theorem Quiet.map {α β : Type} {m : TM α} (f : α → β) (hm : Quiet m) : Quiet (f <$> m) :=
  Quiet.bind hm fun a => Quiet.pure (f a)

theorem Quiet.crash {α : Type} : Quiet (crash : TM α) := by
  intro s s' b e; exact (TM.crash_ok.mp e).elim

theorem Quiet.readH {α : Type} (f : Heap → R α) : Quiet (readH f) := by
  intro s s' b e
  obtain ⟨rfl, _⟩ := TM.readH_ok.mp e
  exact ⟨rfl, fun _ => id⟩

theorem Quiet.liftH {α : Type} {f : Heap → R (Heap × α)} (h : HPres f) : Quiet (liftH f) := by
  intro s s' b e
  obtain ⟨h', rfl, e1⟩ := TM.liftH_ok.mp e
  exact ⟨rfl, h _ _ _ e1⟩

theorem Quiet.alloc {n : Node} (h : NodeGood n) : Quiet (alloc n) := by
  intro s s' b e
  obtain ⟨rfl, _⟩ := TM.alloc_ok.mp e
  exact ⟨rfl, fun _ i => i.new h⟩

theorem Quiet.normalType (n : Nat) (t : Ptr) : Quiet (Elab.liftH (Types.normalType n · t)) := .liftH (normalType_good n t)
theorem Quiet.depoly (n : Nat) (t : Ptr) : Quiet (Elab.liftH (Elab.depoly n · t)) := .liftH (depoly_good n t)

/-- Goes through the steps of a function that leaves the scopes alone. -/
macro "quiet" : tactic => `(tactic| repeat (first
  | exact Quiet.pure _
  | exact Quiet.crash
  | exact Quiet.readH _
  | exact Quiet.normalType _ _
  | exact Quiet.depoly _ _
  | exact Quiet.alloc trivial
  | assumption
  | (refine Quiet.bind ?_ fun _ => ?_)
  | split))

theorem checkNameSpace_quiet (n : Nat) (x : Name) (t : Ptr) : Quiet (checkNameSpace n x t) := .readH _

theorem polyApply_quiet (n : Nat) (p : Ptr × Tc) (a : Ptr) : Quiet (polyApply n p a) := by
  unfold polyApply
  have := fun arg => Quiet.liftH (newPolyApplyType_good arg n p.1)
  quiet
  · exact this _
  · quiet
  · quiet

theorem applyVars_quiet (n : Nat) : (vars : Vars) → (r : Ptr × Tc) → Quiet (applyVars n r vars)
  | [], r => by unfold applyVars; quiet
  | (_, none) :: _, r => by unfold applyVars; quiet
  | (_, some t) :: vars, r => by
    unfold applyVars
    refine Quiet.bind (.alloc trivial) fun _ => Quiet.bind (polyApply_quiet _ _ _) fun _ => ?_
    split
    · exact .pure _
    · exact applyVars_quiet n vars _

theorem typeInferArgs_quiet (n : Nat) (vars : Vars) (ex ac : List Ptr) (p : Ptr × Tc) : Quiet (typeInferArgs n vars ex ac p) := by
  unfold typeInferArgs
  split
  · exact .pure _
  · refine Quiet.bind (.liftH (inferLoop_good _ _ _ _)) fun r => ?_
    simp only
    split
    · exact .pure _
    · exact applyVars_quiet _ _ _

theorem applyLoop_quiet (n : Nat) : (args : List (Ptr × Tc)) → (r : Ptr × Tc) → Quiet (applyLoop n r args)
  | [], r => by unfold applyLoop; quiet
  | a :: args, r => by
    unfold applyLoop
    refine Quiet.bind (.depoly _ _) fun _ => Quiet.bind (.readH _) fun _ => ?_
    split
    · refine Quiet.bind (typeInferArgs_quiet _ _ _ _ _) fun _ => ?_
      split
      · exact .pure _
      · refine Quiet.bind (.normalType _ _) fun _ => Quiet.bind (.readH _) fun _ => ?_
        split
        · exact applyLoop_quiet n args _
        · exact .crash
    · exact .pure _

theorem applyType_quiet (M : List Name) (n : Nat) (m : Ptr × Tc) (t : Ptr) (args : List (Ptr × Tc)) : Quiet (applyType M n m t args) := by
  unfold applyType
  refine Quiet.bind (.normalType _ _) fun _ => Quiet.bind (.readH _) fun _ => ?_
  split
  · quiet
  · refine Quiet.bind (.depoly _ _) fun _ => Quiet.bind (.readH _) fun _ => ?_
    split
    · refine Quiet.bind (typeInferArgs_quiet _ _ _ _ _) fun _ => ?_
      quiet
    · exact applyLoop_quiet _ _ _

theorem letters_quiet (n : Nat) (unit : Ptr) (fields : List (Name × Ptr)) : (k : Nat) → (w : List Char) → Quiet (letters n unit fields k w)
  | 0, w => by unfold letters; quiet
  | k + 1, w => by
    unfold letters
    split
    · exact .pure _
    · simp only
      split
      · exact .pure _
      · split
        · exact .crash
        · refine Quiet.bind (.readH _) fun _ => ?_
          split
          · exact .pure _
          · refine Quiet.bind (letters_quiet n unit fields k _) fun _ => ?_
            quiet

theorem copyLoop_quiet (n : Nat) : (fs : List (Name × Ptr)) → (args : List (Name × Option (Ptr × Tc))) → Quiet (copyLoop n fs args)
  | [], _ => by unfold copyLoop; quiet
  | (x, ft) :: fs, (y, r) :: args => by
    unfold copyLoop
    split
    · cases r with
      | none => exact .crash
      | some r =>
        simp only
        refine Quiet.bind (.readH _) fun _ => Quiet.bind (copyLoop_quiet n fs args) fun _ => ?_
        quiet
    · refine Quiet.bind (copyLoop_quiet n fs _) fun _ => ?_
      quiet
  | _ :: fs, [] => by
    unfold copyLoop
    refine Quiet.bind (copyLoop_quiet n fs _) fun _ => ?_
    quiet

theorem checkNames_quiet (n : Nat) : (rs : List (Name × Option (Ptr × Tc))) → Quiet (checkNames n rs)
  | [] => by unfold checkNames; quiet
  | (_, none) :: rs => by
    unfold checkNames
    refine Quiet.bind (checkNames_quiet n rs) fun _ => ?_
    quiet
  | (x, some (t, _)) :: rs => by
    unfold checkNames
    refine Quiet.bind (checkNameSpace_quiet _ _ _) fun _ => Quiet.bind (checkNames_quiet n rs) fun _ => ?_
    quiet

theorem anyVacuous_quiet (n : Nat) : (ts : List Ptr) → Quiet (anyVacuous n ts)
  | [] => by unfold anyVacuous; quiet
  | t :: ts => by
    unfold anyVacuous
    refine Quiet.bind (.liftH (typeIsVacuous_good _ _)) fun _ => Quiet.bind (anyVacuous_quiet n ts) fun _ => ?_
    quiet

theorem bindAssign_quiet (n : Nat) : (bs : List Binding) → (ts ds : List Ptr) → Quiet (bindAssign n bs ts ds)
  | b :: bs, t :: ts, d :: ds => by
    unfold bindAssign
    refine Quiet.bind ?_ fun _ => Quiet.bind (bindAssign_quiet n bs ts ds) fun _ => .pure _
    split
    · exact .pure _
    · refine Quiet.bind (.liftH ?_) fun _ => .pure _
      intro h h' a e H hh
      obtain ⟨h1, e1, e⟩ := R.bind_ok.mp e
      simp only [R.pure_ok] at e; cases e
      exact assignVarType_good n e1 hh
  | [], _, _ => by unfold bindAssign; quiet
  | _ :: _, [], _ => by unfold bindAssign; quiet
  | _ :: _, _ :: _, [] => by unfold bindAssign; quiet

/-! ### With the checking of expressions and types within -/

theorem Pres.pure {α : Type} (a : α) : Pres (Pure.pure a : TM α) := (Quiet.pure a).pres

/-- Goes through the steps of a function that only does lookups. -/
macro "pres" : tactic => `(tactic| repeat (first
  | exact Pres.pure _
  | exact Quiet.pres Quiet.crash
  | exact Quiet.pres (Quiet.readH _)
  | exact Quiet.pres (Quiet.normalType _ _)
  | exact Quiet.pres (Quiet.depoly _ _)
  | exact Quiet.pres (Quiet.alloc trivial)
  | exact Quiet.pres (typeInferArgs_quiet _ _ _ _ _)
  | exact Quiet.pres (polyApply_quiet _ _ _)
  | exact Quiet.pres (copyLoop_quiet _ _ _)
  | exact Quiet.pres (checkNames_quiet _ _)
  | exact Quiet.pres (applyType_quiet _ _ _ _ _)
  | exact Quiet.pres (applyLoop_quiet _ _ _)
  | exact Quiet.pres (letters_quiet _ _ _ _ _)
  | assumption
  | solve_by_elim
  | (refine Pres.bind ?_ fun _ => ?_)
  | split))

section
variable {M : List Name} {n : Nat} {rec : Rec} {recT : RecT}

theorem tcEach_pres (hrec : ∀ e, Pres (rec e)) : (es : List Expr) → Pres (tcEach rec es)
  | [] => .pure _
  | e :: es => .bind (hrec e) fun _ => .bind (tcEach_pres hrec es) fun _ => .pure _

theorem lookup_pres (x : VarName) : Pres (lookup x) := by
  intro s s' a e
  unfold lookup at e
  split at e
  · cases e; exact .refl _
  · rename_i v scopes hg
    cases e
    obtain ⟨h1, h2, _⟩ := getVar_ext hg
    exact ⟨h1, h2, fun hs => ((getVar_types hg).2 hs).1, fun _ => id⟩

theorem tcVar_pres (x : VarName) : Pres (tcVar x) := by
  unfold tcVar
  refine .bind (lookup_pres x) fun _ => ?_
  pres

theorem dupNames_zip {α : Type} : (xs : List Name) → (ts : List α) → dupNames xs = false → dupNames ((xs.zip ts).map (·.1)) = false
  | [], _, _ => by simp [dupNames]
  | _ :: _, [], _ => by simp [dupNames]
  | x :: xs, t :: ts, h => by
    simp only [dupNames, Bool.or_eq_false_iff, List.zip_cons_cons, List.map_cons] at h ⊢
    refine ⟨?_, dupNames_zip xs ts h.2⟩
    rw [List.any_eq_false] at h ⊢
    intro y hy
    obtain ⟨⟨y', t'⟩, hm, rfl⟩ := List.mem_map.mp hy
    exact h.1 _ (List.of_mem_zip hm).1

theorem tcStruct_pres (hrec : ∀ e, Pres (rec e)) (args : List (Name × Expr)) : Pres (tcStruct n rec args) := by
  unfold tcStruct
  refine .bind (tcEach_pres hrec _) fun rs => .bind (checkNames_quiet _ _).pres fun ok => ?_
  split
  · exact .pure _
  · rename_i rs' hs
    split
    · exact .pure _
    · rename_i hd
      refine .bind (Quiet.pres (.alloc ?_)) fun _ => .pure _
      simp at hd
      exact dupNames_zip _ _ hd.2

theorem tcCopy_pres (hrec : ∀ e, Pres (rec e)) (src : Expr) (args : List (Name × Expr)) : Pres (tcCopy n rec src args) := by
  have := tcEach_pres hrec
  unfold tcCopy
  pres

theorem tcUnion_pres (hrec : ∀ e, Pres (rec e)) (hrecT : ∀ e, Quiet (recT e)) (t : Expr) (f : Name) (a : Expr) : Pres (tcUnion n rec recT t f a) := by
  have := fun e => (hrecT e).pres
  unfold tcUnion
  pres

theorem exprForType_quiet (hrec : ∀ e, Pres (rec e)) (e : Expr) : Quiet (exprForType rec e) := by
  intro s s' a h
  unfold exprForType at h
  obtain ⟨s1, _, h1, h⟩ := TM.bind_ok.mp h
  obtain ⟨s2, r, h2, h⟩ := TM.bind_ok.mp h
  obtain ⟨s3, _, h3, h⟩ := TM.bind_ok.mp h
  obtain ⟨rfl, rfl⟩ := TM.pure_ok.mp h
  unfold pushScope at h1
  cases h1
  have hst := hrec e _ _ _ h2
  have hx := hst.ext
  unfold popScope at h3
  cases h4 : s2.scopes with
  | nil => rw [h4] at h3; cases h3
  | cons sc rest =>
    rw [h4] at h3 hx
    cases h3
    cases hx with
    | phantom _ _ => exact ⟨rfl, hst.heap⟩
    | live hc _ _ => exact absurd rfl hc

theorem exprAsType_quiet (hrec : ∀ e, Pres (rec e)) (e : Expr) : Quiet (exprAsType rec e) := by
  have := exprForType_quiet hrec
  unfold exprAsType
  refine Quiet.bind (this e) fun _ => ?_
  quiet

theorem tcPolyApply_pres (hrec : ∀ e, Pres (rec e)) (p a : Expr) : Pres (tcPolyApply n rec p a) := by
  have := fun e => (exprForType_quiet hrec e).pres
  unfold tcPolyApply
  pres

theorem tcList_pres (hrec : ∀ e, Pres (rec e)) (f : Expr) (args : List Expr) : Pres (tcList n rec f args) := by
  have := tcEach_pres hrec
  unfold tcList
  pres

theorem tcLiteral_pres (hrec : ∀ e, Pres (rec e)) (f : Expr) (w : List Char) : Pres (tcLiteral n rec f w) := by
  have h1 : Quiet (alloc (.data .struct [])) := .alloc rfl
  have h2 := h1.pres
  unfold tcLiteral
  pres

theorem tcCast_pres (hrec : ∀ e, Pres (rec e)) (hrecT : ∀ e, Quiet (recT e)) (p t v : Expr) : Pres (tcCast M n rec recT p t v) := by
  have := fun e => (hrecT e).pres
  unfold tcCast
  pres

theorem tcAbstractAccess_pres (hrec : ∀ e, Pres (rec e)) (v : Expr) : Pres (tcAbstractAccess M n rec v) := by
  unfold tcAbstractAccess
  pres

theorem tcAccess_pres (hrec : ∀ e, Pres (rec e)) (o : Expr) (f : Name) : Pres (tcAccess n rec o f) := by
  unfold tcAccess
  pres

theorem tcApply_pres (hrec : ∀ e, Pres (rec e)) (m : Expr) (args : List Expr) (b : Bool) : Pres (tcApply M n rec m args b) := by
  have := tcEach_pres hrec
  unfold tcApply
  pres

theorem selLoop_pres (hrec : ∀ e, Pres (rec e)) (hd : Bool) : (fs : List (Name × Ptr)) → (i : Nat) → (cs : List (Name × Expr)) → (rt : Option Ptr) → Pres (selLoop n rec hd fs i cs rt)
  | [], _, _, _ => by unfold selLoop; pres
  | (x, _) :: fs, i, (y, e) :: cs, rt => by
    have := selLoop_pres hrec hd fs (i + 1)
    unfold selLoop
    pres
  | _ :: fs, i, [], rt => by
    have := selLoop_pres hrec hd fs (i + 1)
    unfold selLoop
    pres

theorem tcSelect_pres (hrec : ∀ e, Pres (rec e)) (c : Expr) (cs : List (Name × Expr)) (d : Option Expr) : Pres (tcSelect n rec c cs d) := by
  have := selLoop_pres (n := n) hrec
  unfold tcSelect
  pres

theorem typeAsExpr_pres (hrecT : ∀ e, Quiet (recT e)) (e : Expr) : Pres (typeAsExpr recT e) := by
  unfold typeAsExpr
  refine Pres.bind (hrecT e).pres fun _ => ?_
  pres

/-! ### Types -/

/-- The fields of a type that is accepted have names that differ from each other and from those before. -/
theorem dataFields_names : (fs : List (Name × Expr)) → (prev : List Name) → {s s' : S} → {r : List (Name × Ptr)} →
    dataFields n recT prev fs s = .ok (s', some r) → r.map (·.1) = fs.map (·.1) ∧ dupNames (r.map (·.1)) = false ∧ ∀ x ∈ r.map (·.1), ¬ prev.any (namesEqual x)
  | [], prev, s, s', r, h => by
    unfold dataFields at h
    obtain ⟨_, h⟩ := TM.pure_ok.mp h
    cases h; exact ⟨rfl, rfl, by simp⟩
  | (x, e) :: fs, prev, s, s', r, h => by
    unfold dataFields at h
    obtain ⟨s1, t, _, h⟩ := TM.bind_ok.mp h
    cases t with
    | none => cases (TM.pure_ok.mp h).2
    | some t =>
      obtain ⟨s2, ok, _, h⟩ := TM.bind_ok.mp h
      split at h
      · cases (TM.pure_ok.mp h).2
      · split at h
        · cases (TM.pure_ok.mp h).2
        · rename_i _ hd
          obtain ⟨s3, q, h3, h⟩ := TM.bind_ok.mp h
          cases q with
          | none => cases (TM.pure_ok.mp h).2
          | some q =>
            cases (TM.pure_ok.mp h).2
            obtain ⟨h4, h5, h6⟩ := dataFields_names fs (x :: prev) h3
            refine ⟨by simp [h4], ?_, ?_⟩
            · simp only [List.map_cons, dupNames, Bool.or_eq_false_iff]
              refine ⟨?_, h5⟩
              rw [List.any_eq_false]
              intro y hy hxy
              have := h6 y hy
              rw [List.any_cons, Bool.or_eq_true, not_or, namesEqual_iff] at this
              exact this.1 (namesEqual_iff.mp hxy).symm
            · intro y hy
              simp only [List.map_cons, List.mem_cons] at hy
              rcases hy with rfl | hy
              · exact hd
              · have := h6 y hy
                rw [List.any_cons, Bool.or_eq_true, not_or] at this
                exact this.2

theorem dataFields_quiet (hrecT : ∀ e, Quiet (recT e)) : (fs : List (Name × Expr)) → (prev : List Name) → Quiet (dataFields n recT prev fs)
  | [], prev => by unfold dataFields; quiet
  | (x, e) :: fs, prev => by
    unfold dataFields
    refine Quiet.bind (hrecT e) fun _ => ?_
    split
    · exact .pure _
    · refine Quiet.bind (checkNameSpace_quiet _ _ _) fun _ => ?_
      split
      · exact .pure _
      · split
        · exact .pure _
        · refine Quiet.bind (dataFields_quiet hrecT fs _) fun _ => ?_
          quiet

theorem dataType_quiet (hrecT : ∀ e, Quiet (recT e)) (dt : DataKind) (fs : List (Name × Expr)) : Quiet (do
    match ← dataFields n recT [] fs with
    | none => return none
    | some fs => some <$> alloc (.data dt fs) : TM (Option Ptr)) := by
  intro s s' a h
  obtain ⟨s1, r, h1, h⟩ := TM.bind_ok.mp h
  obtain ⟨g1, g2⟩ := dataFields_quiet hrecT fs [] _ _ _ h1
  cases r with
  | none => obtain ⟨rfl, _⟩ := TM.pure_ok.mp h; exact ⟨g1, g2⟩
  | some r =>
    obtain ⟨_, h4, _⟩ := dataFields_names fs [] h1
    obtain ⟨g3, g4⟩ := Quiet.map some (Quiet.alloc (n := .data dt r) h4) _ _ _ h
    exact ⟨g3.trans g1, fun H i => g4 H (g2 H i)⟩

theorem tcFuncType_quiet (hrecT : ∀ e, Quiet (recT e)) (a r : Expr) : Quiet (tcFuncType recT a r) := by
  unfold tcFuncType
  refine Quiet.bind (hrecT a) fun _ => Quiet.bind (hrecT r) fun _ => ?_
  quiet

/-! ### Functions, polymorphic values and let -/

theorem tcFunc_pres (hrec : ∀ e, Pres (rec e)) (hrecT : ∀ e, Quiet (recT e)) (x : Name) (t b : Expr) : Pres (tcFunc rec recT x t b) := by
  unfold tcFunc
  refine Pres.bind (hrecT t).pres fun r => ?_
  split
  · exact .pure _
  · rename_i argT
    intro s s' a h
    obtain ⟨s1, _, h1, h⟩ := TM.bind_ok.mp h
    obtain ⟨s2, r, h2, h⟩ := TM.bind_ok.mp h
    obtain ⟨s3, sc, h3, h⟩ := TM.bind_ok.mp h
    unfold pushScope at h1
    cases h1
    have hst := hrec b _ _ _ h2
    have hx := hst.ext
    have hi := hst.inv
    have hsta := hst.stat
    unfold popScope at h3
    have hs3 : Ext s.scopes s3.scopes ∧ (Inv s.scopes → Inv s3.scopes) ∧ (Stat s.scopes → Stat s3.scopes) ∧ (∀ H, HGood H s.heap → HGood H s3.heap) := by
      cases h4 : s2.scopes with
      | nil => rw [h4] at h3; cases h3
      | cons sc rest =>
        rw [h4] at h3 hx hi hsta
        cases h3
        cases hx with
        | phantom hc _ => cases hc
        | live _ _ hr =>
          refine ⟨hr, fun hinv => ?_, fun hs => (hsta ⟨by simp [initScope], hs⟩).2, hst.heap⟩
          cases hsc : s.scopes with
          | nil => rw [hsc] at hr; cases hr; trivial
          | cons p rest0 =>
            refine (hi ⟨?_, hinv⟩).2
            show CapOk _ _
            rw [hsc]
            refine ⟨⟨p, rest0, rfl, .nil⟩, fun i v hv => ?_⟩
            simp [initScope] at hv
    refine Step.trans (b := s3) ⟨hs3.1, hs3.2.1, hs3.2.2.1, hs3.2.2.2⟩ ?_
    cases r with
    | none => exact Pres.pure _ _ _ _ h
    | some r =>
      exact Pres.bind (Quiet.pres (Quiet.alloc (n := .func argT r.1) trivial)) (fun _ => Pres.pure _) _ _ _ h

/-- Checking with more local variables, which are then dropped. -/
theorem bracket {s1 s2 : S} {sc sc2 : Scope} {rest rest2 : List Scope} {k : Nat} {locals : List V} {alloc : Nat} {vs : List V}
    (h1 : s1.scopes = { sc with locals := vs ++ sc.locals, allocated := alloc } :: rest) (hl : vs.length = k)
    (hst : Step s1 s2) (h2 : s2.scopes = sc2 :: rest2) (hloc : locals = sc2.locals.drop k) :
    ScExt sc { sc2 with locals := locals, allocated := sc.allocated } ∧ Ext (sc :: rest) ({ sc2 with locals := locals, allocated := sc.allocated } :: rest2) ∧
      (Inv (sc :: rest) → Inv ({ sc2 with locals := locals, allocated := sc.allocated } :: rest2)) := by
  have hx := hst.ext
  have hi := hst.inv
  rw [h1, h2] at hx hi
  have hdrop : ∀ {b}, All2 VExt (vs ++ sc.locals) b → All2 VExt sc.locals (b.drop k) := by
    intro b hb
    obtain ⟨c1, c2, rfl, g1, g2⟩ := All2.split_append hb
    rw [List.drop_append_of_le_length (by rw [← g1.length_eq, hl]; exact Nat.le_refl _), List.drop_of_length_le (by rw [← g1.length_eq, hl]; exact Nat.le_refl _)]
    exact g2
  have hsc : ∀ {b : Scope}, ScExt { sc with locals := vs ++ sc.locals, allocated := alloc } b →
      ScExt sc { b with locals := b.locals.drop k, allocated := sc.allocated } := by
    intro b hb
    exact ⟨hdrop hb.locals, hb.args, hb.statics, rfl, hb.captured⟩
  have hinv : Inv (sc :: rest) → Inv ({ sc2 with locals := locals, allocated := sc.allocated } :: rest2) := by
    intro hinv
    have := hi ⟨hinv.1.vars rfl rfl, hinv.2⟩
    exact ⟨this.1.vars rfl rfl, this.2⟩
  subst hloc
  cases hx with
  | phantom hc h3 => exact ⟨hsc h3, .phantom hc (hsc h3), hinv⟩
  | live hc h3 h4 => exact ⟨hsc h3, .live hc (hsc h3) h4, hinv⟩

theorem onScope_ok {α : Type} {f : Scope → Scope × α} {s s' : S} {a : α} :
    onScope f s = .ok (s', a) ↔ ∃ sc rest, s.scopes = sc :: rest ∧ s' = { s with scopes := (f sc).1 :: rest } ∧ a = (f sc).2 := by
  unfold onScope
  cases h : s.scopes with
  | nil => simp
  | cons sc rest =>
    simp only [R.ok.injEq, Prod.mk.injEq, List.cons.injEq]
    constructor
    · rintro ⟨rfl, rfl⟩; exact ⟨sc, rest, ⟨rfl, rfl⟩, rfl, rfl⟩
    · rintro ⟨_, _, ⟨rfl, rfl⟩, rfl, rfl⟩; exact ⟨rfl, rfl⟩

/-- The variables of a let, from the first on. -/
def letVars : Nat → List Name → List Ptr → List V
  | i, x :: xs, t :: ts => ⟨.normal x, t, false, some (.loc i)⟩ :: letVars (i + 1) xs ts
  | _, _, _ => []

theorem letVars_length : (i : Nat) → (xs : List Name) → (ts : List Ptr) → xs.length = ts.length → (letVars i xs ts).length = xs.length
  | _, [], [], _ => rfl
  | i, x :: xs, t :: ts, h => by
    have := letVars_length (i + 1) xs ts (by simpa using h)
    simp [letVars, this]

theorem letVars_isSome : (i : Nat) → (xs : List Name) → (ts : List Ptr) → {v : V} → v ∈ letVars i xs ts → v.var.isSome
  | _, [], _, _, h => by simp [letVars] at h
  | _, _ :: _, [], _, h => by simp [letVars] at h
  | i, x :: xs, t :: ts, v, h => by
    simp only [letVars, List.mem_cons] at h
    rcases h with rfl | h
    · rfl
    · exact letVars_isSome (i + 1) xs ts h

theorem pushLocals_ok : (xs : List Name) → (ts : List Ptr) → xs.length = ts.length → {s s' : S} → {sc : Scope} → {rest : List Scope} → s.scopes = sc :: rest →
    pushLocals xs ts s = .ok (s', ()) →
    s' = { s with scopes := { sc with locals := (letVars sc.allocated xs ts).reverse ++ sc.locals, allocated := sc.allocated + xs.length } :: rest }
  | [], [], _, s, s', sc, rest, hs, h => by
    unfold pushLocals at h
    obtain ⟨rfl, _⟩ := TM.pure_ok.mp h
    simp [letVars]
    cases s'; cases hs; rfl
  | x :: xs, t :: ts, hl, s, s', sc, rest, hs, h => by
    unfold pushLocals at h
    obtain ⟨s1, _, h1, h⟩ := TM.bind_ok.mp h
    obtain ⟨sc0, rest0, e, h1, _⟩ := onScope_ok.mp h1
    rw [hs] at e; cases e
    subst h1
    rw [pushLocals_ok xs ts (by simpa using hl) rfl h]
    simp only [letVars, List.reverse_cons, List.append_assoc, List.singleton_append, List.length_cons]
    rw [show sc.allocated + 1 + xs.length = sc.allocated + (xs.length + 1) by omega]

theorem popLocals_ok : (k : Nat) → {s s' : S} → {sc : Scope} → {rest : List Scope} → s.scopes = sc :: rest →
    k ≤ sc.locals.length → (∀ v ∈ sc.locals.take k, v.var.isSome) →
    popLocals k s = .ok (s', ()) →
    s' = { s with scopes := { sc with locals := sc.locals.drop k, allocated := sc.allocated - k } :: rest }
  | 0, s, s', sc, rest, hs, _, _, h => by
    unfold popLocals at h
    obtain ⟨rfl, _⟩ := TM.pure_ok.mp h
    cases s'; cases hs; rfl
  | k + 1, s, s', sc, rest, hs, hk, hv, h => by
    unfold popLocals at h
    obtain ⟨s1, _, h1, h⟩ := TM.bind_ok.mp h
    obtain ⟨sc0, rest0, e, h1, _⟩ := onScope_ok.mp h1
    rw [hs] at e; cases e
    subst h1
    cases hloc : sc.locals with
    | nil => rw [hloc] at hk; simp at hk
    | cons v vs =>
      rw [hloc] at h hk hv
      simp only [List.take_succ_cons, List.mem_cons, forall_eq_or_imp] at hv
      simp only [hv.1, if_true] at h
      rw [popLocals_ok k rfl (by simpa using hk) hv.2 h]
      simp only [List.drop_succ_cons]
      rw [show sc.allocated - 1 - k = sc.allocated - (k + 1) by omega]

theorem retype_ext : (ts : List Ptr) → (vs : List V) → All2 VExt vs (retype ts vs)
  | [], vs => by simp [retype]; exact All2.refl VExt.refl _
  | _ :: _, [] => by simp [retype]; exact .nil
  | t :: ts, v :: vs => .cons ⟨rfl, rfl, id⟩ (retype_ext ts vs)

theorem setTypes_pres (ts : List Ptr) : Pres (setTypes ts) := by
  intro s s' a h
  obtain ⟨sc, rest, e, rfl, _⟩ := onScope_ok.mp h
  refine ⟨?_, ?_, by rw [e]; exact id, fun _ => id⟩
  · rw [e]; exact .head (Scope.ext_locals (retype_ext _ _))
  · rw [e]; exact fun hi => ⟨hi.1.vars rfl rfl, hi.2⟩

theorem anyUsed_ok {k : Nat} {s s' : S} {b : Bool} (h : anyUsed k s = .ok (s', b)) :
    s' = s ∧ ∃ sc rest, s.scopes = sc :: rest ∧ b = (sc.locals.take k).any (·.used) := by
  obtain ⟨sc, rest, e, rfl, rfl⟩ := onScope_ok.mp h
  refine ⟨by cases s; cases e; rfl, sc, rest, e, rfl⟩

theorem anyUsed_pres (k : Nat) : Pres (anyUsed k) := by
  intro s s' a h
  rw [(anyUsed_ok h).1]; exact .refl _

theorem bindDefs_pres (hrec : ∀ e, Pres (rec e)) : (bs : List Binding) → (ts : List Ptr) → Pres (bindDefs n rec bs ts)
  | [], _ => by unfold bindDefs; exact .pure _
  | _ :: _, [] => by unfold bindDefs; exact .pure _
  | b :: bs, t :: ts => by
    have := bindDefs_pres hrec bs ts
    unfold bindDefs
    pres

theorem letInner_pres (hrec : ∀ e, Pres (rec e)) (bs : List Binding) (ts : List Ptr) (body : Expr) : Pres (letInner n rec bs ts body) := by
  have h1 := bindDefs_pres (n := n) hrec bs ts
  have h2 := anyUsed_pres
  have h3 := fun bs ts ds => (bindAssign_quiet n bs ts ds).pres
  have h4 := setTypes_pres
  have h5 := fun ts => (anyVacuous_quiet n ts).pres
  unfold letInner
  pres

theorem bindTypes_length : (bs : List Binding) → (prev : List Name) → {s s' : S} → {ts : List Ptr} → bindTypes n recT prev bs s = .ok (s', some ts) → ts.length = bs.length
  | [], prev, s, s', ts, h => by
    unfold bindTypes at h
    obtain ⟨_, h⟩ := TM.pure_ok.mp h
    cases h; rfl
  | b :: bs, prev, s, s', ts, h => by
    unfold bindTypes at h
    obtain ⟨s1, t, _, h⟩ := TM.bind_ok.mp h
    obtain ⟨s2, ok, _, h⟩ := TM.bind_ok.mp h
    obtain ⟨s3, q, h3, h⟩ := TM.bind_ok.mp h
    cases t with
    | none => cases (TM.pure_ok.mp h).2
    | some t =>
      cases q with
      | none => cases (TM.pure_ok.mp h).2
      | some q =>
        obtain ⟨_, h⟩ := TM.pure_ok.mp h
        split at h
        · cases h
          simp [bindTypes_length bs _ h3]
        · cases h

theorem bindTypes_quiet (hrecT : ∀ e, Quiet (recT e)) : (bs : List Binding) → (prev : List Name) → Quiet (bindTypes n recT prev bs)
  | [], prev => by unfold bindTypes; exact .pure _
  | b :: bs, prev => by
    unfold bindTypes
    refine Quiet.bind ?_ fun t => Quiet.bind ?_ fun ok => Quiet.bind (bindTypes_quiet hrecT bs _) fun ts => ?_
    · split
      · exact Quiet.bind (.liftH (newVarType_good _)) fun _ => .pure _
      · exact hrecT _
    · split
      · exact .pure _
      · exact checkNameSpace_quiet _ _ _
    · split <;> exact .pure _

theorem Ext.cons_left {sc : Scope} {rest σ : List Scope} (h : Ext (sc :: rest) σ) : ∃ sc' rest', σ = sc' :: rest' ∧ ScExt sc sc' := by
  cases h with
  | phantom _ h => exact ⟨_, _, rfl, h⟩
  | live _ h _ => exact ⟨_, _, rfl, h⟩

/-- The variables of a let are in scope while its parts are checked, and then no more. -/
theorem let_frame {bs : List Binding} {ts : List Ptr} {α : Type} {m : TM α} (hm : Pres m) (hl : ts.length = bs.length) {s s' : S} {a : α}
    {sc : Scope} {rest : List Scope} (hs : s.scopes = sc :: rest)
    (h : (do pushLocals (bs.map (·.name)) ts; let r ← m; popLocals bs.length; return r : TM α) s = .ok (s', a)) :
    ∃ s1 s2 sc2 rest2,
      s1 = { s with scopes := { sc with locals := (letVars sc.allocated (bs.map (·.name)) ts).reverse ++ sc.locals, allocated := sc.allocated + bs.length } :: rest } ∧
      m s1 = .ok (s2, a) ∧ s2.scopes = sc2 :: rest2 ∧ s' = { s2 with scopes := { sc2 with locals := sc2.locals.drop bs.length, allocated := sc.allocated } :: rest2 } := by
  obtain ⟨s1, _, h1, h⟩ := TM.bind_ok.mp h
  obtain ⟨s2, r, h2, h⟩ := TM.bind_ok.mp h
  obtain ⟨s3, _, h3, h⟩ := TM.bind_ok.mp h
  obtain ⟨rfl, rfl⟩ := TM.pure_ok.mp h
  have e1 := pushLocals_ok _ _ (by simp [hl]) hs h1
  simp only [List.length_map] at e1
  have hst := hm _ _ _ h2
  have hx := hst.ext
  rw [e1] at hx
  obtain ⟨sc2, rest2, hs2, hsc⟩ := hx.cons_left
  refine ⟨s1, s2, sc2, rest2, e1, h2, hs2, ?_⟩
  have hlen := letVars_length sc.allocated (bs.map (·.name)) ts (by simp [hl])
  simp only [List.length_map] at hlen
  have hloc := hsc.locals
  simp only at hloc
  obtain ⟨c1, c2, e2, g1, g2⟩ := All2.split_append hloc
  have hc1 : c1.length = bs.length := by rw [← g1.length_eq]; simp [hlen]
  have := popLocals_ok bs.length hs2 (by rw [e2]; simp [hc1]) (by
    rw [e2, List.take_append_of_le_length (by omega), List.take_of_length_le (by omega)]
    intro v hv
    obtain ⟨w, hw, hwv⟩ := g1.mem_right hv
    rw [hwv.var]
    exact letVars_isSome _ _ _ (List.mem_reverse.mp hw)) h3
  rw [this, hsc.allocated]
  simp

theorem tcLet_pres (hrec : ∀ e, Pres (rec e)) (hrecT : ∀ e, Quiet (recT e)) (bs : List Binding) (body : Expr) : Pres (tcLet n rec recT bs body) := by
  intro s s' a h
  unfold tcLet at h
  obtain ⟨s0, r, h0, h⟩ := TM.bind_ok.mp h
  refine Step.trans ((bindTypes_quiet hrecT bs []).pres _ _ _ h0) ?_
  cases r with
  | none => exact Pres.pure _ _ _ _ h
  | some ts =>
    have hl := bindTypes_length bs [] h0
    have hm := letInner_pres (n := n) hrec bs ts body
    cases hs : s0.scopes with
    | cons sc rest =>
      obtain ⟨s1, s2, sc2, rest2, e1, h2, hs2, rfl⟩ := let_frame hm hl hs h
      have hst := hm _ _ _ h2
      obtain ⟨_, g1, g2⟩ := bracket (k := bs.length) (by rw [e1]) (by simp [letVars_length _ _ _ (show (bs.map (·.name)).length = ts.length by simp [hl])]) hst hs2 rfl
      refine ⟨by rw [hs]; exact g1, by rw [hs]; exact g2, fun hsta => ?_, ?_⟩
      · have := hst.stat
        rw [e1, hs2] at this
        rw [hs] at hsta
        exact this hsta
      have := hst.heap
      rw [e1] at this; exact this
    | nil =>
      simp only at h
      obtain ⟨s1, _, h1, h⟩ := TM.bind_ok.mp h
      obtain ⟨s2, r, h2, h⟩ := TM.bind_ok.mp h
      obtain ⟨s3, _, h3, h⟩ := TM.bind_ok.mp h
      obtain ⟨rfl, rfl⟩ := TM.pure_ok.mp h
      cases bs with
      | nil =>
        simp only [List.map_nil, List.length_nil] at h1 h3
        unfold pushLocals at h1
        unfold popLocals at h3
        obtain ⟨rfl, _⟩ := TM.pure_ok.mp h1
        obtain ⟨rfl, _⟩ := TM.pure_ok.mp h3
        exact hm _ _ _ h2
      | cons b bs =>
        cases ts with
        | nil => simp at hl
        | cons t ts =>
          simp only [List.map_cons] at h1
          unfold pushLocals at h1
          obtain ⟨_, _, h1, _⟩ := TM.bind_ok.mp h1
          obtain ⟨_, _, e, _⟩ := onScope_ok.mp h1
          rw [hs] at e; cases e

/-- The variable of a polymorphic value is in scope while its body is checked, and then no more. -/
theorem poly_frame {x : VarName} {t : Ptr} {α : Type} {m : TM α} (hm : Pres m) {s s' : S} {a : α}
    (h : (do pushLocalType x t; let r ← m; popLocal; return r : TM α) s = .ok (s', a)) :
    ∃ sc rest s1 s2 sc2 rest2, s.scopes = sc :: rest ∧
      s1 = { s with scopes := { sc with locals := ⟨x, t, false, none⟩ :: sc.locals } :: rest } ∧
      m s1 = .ok (s2, a) ∧ s2.scopes = sc2 :: rest2 ∧ s' = { s2 with scopes := { sc2 with locals := sc2.locals.drop 1, allocated := sc.allocated } :: rest2 } := by
  obtain ⟨s1, _, h1, h⟩ := TM.bind_ok.mp h
  obtain ⟨s2, r, h2, h⟩ := TM.bind_ok.mp h
  obtain ⟨s3, _, h3, h⟩ := TM.bind_ok.mp h
  obtain ⟨rfl, rfl⟩ := TM.pure_ok.mp h
  obtain ⟨sc, rest, e, h1, _⟩ := onScope_ok.mp h1
  simp only at h1
  have hx := (hm _ _ _ h2).ext
  rw [h1] at hx
  obtain ⟨sc2, rest2, hs2, hsc⟩ := hx.cons_left
  refine ⟨sc, rest, s1, s2, sc2, rest2, e, h1, h2, hs2, ?_⟩
  obtain ⟨sc3, rest3, e3, h3, _⟩ := onScope_ok.mp h3
  rw [hs2] at e3; cases e3
  rw [h3]
  have hl := hsc.locals
  have ha := hsc.allocated
  simp only at hl ha
  cases hloc : sc2.locals with
  | nil => rw [hloc] at hl; cases hl
  | cons v vs =>
    rw [hloc] at hl
    cases hl with
    | cons hv _ =>
      have : v.var = none := hv.var
      simp [this, ha]

theorem tcPoly_pres (hrec : ∀ e, Pres (rec e)) (x : Name) (k : Kind) (body : Expr) : Pres (tcPoly n rec x k body) := by
  unfold tcPoly
  split
  · exact .pure _
  · split
    · exact .pure _
    · refine .bind (Quiet.pres (.liftH (newVarType_good _))) fun argT => .bind (Quiet.pres (.readH _)) fun arg => ?_
      split
      · exact Quiet.pres .crash
      · rename_i argV
        intro s s' a h
        have h' : ((do pushLocalType (.normal x) argT; let r ← rec body; popLocal; return r : TM _) >>= fun r => (match r with
            | none => return none
            | some (t, tc) => do
              let pt ← liftH (newPolyType n · argV t)
              return some (pt, tc) : TM (Option (Ptr × Tc)))) s = .ok (s', a) := by
          obtain ⟨s1, _, h1, h⟩ := TM.bind_ok.mp h
          obtain ⟨s2, r, h2, h⟩ := TM.bind_ok.mp h
          obtain ⟨s3, _, h3, h⟩ := TM.bind_ok.mp h
          exact TM.bind_ok.mpr ⟨s3, r, TM.bind_ok.mpr ⟨s1, _, h1, TM.bind_ok.mpr ⟨s2, r, h2, TM.bind_ok.mpr ⟨s3, _, h3, rfl⟩⟩⟩, h⟩
        obtain ⟨s3, r, h3, h4⟩ := TM.bind_ok.mp h'
        obtain ⟨sc, rest, s1, s2, sc2, rest2, e, e1, h2, hs2, e3⟩ := poly_frame (hrec body) h3
        have hst := hrec body _ _ _ h2
        obtain ⟨_, g1, g2⟩ := bracket (vs := [⟨.normal x, argT, false, none⟩]) (k := 1) (alloc := sc.allocated) (by rw [e1]; rfl) rfl hst hs2 rfl
        refine Step.trans (b := s3) ⟨by rw [e, e3]; exact g1, by rw [e, e3]; exact g2, fun hsta => ?_, ?_⟩ ?_
        · have := hst.stat
          rw [e1, hs2] at this
          rw [e] at hsta
          rw [e3]
          exact this hsta
        · have := hst.heap
          rw [e1] at this; rw [e3]; exact this
        · cases r with
          | none => exact Pres.pure _ _ _ _ h4
          | some r => exact Pres.bind (Quiet.pres (.liftH (newPolyType_good _ _ _))) (fun _ => Pres.pure _) _ _ _ h4

end

/-- Checking an expression looks variables up, and checking a type leaves the scopes alone. -/
theorem tc_pres (M : List Name) : (n : Nat) → (∀ e, Pres (tcExpr M n e)) ∧ (∀ e, Quiet (tcType M n e))
  | 0 => ⟨fun e s s' a h => by simp [tcExpr] at h, fun e s s' a h => by simp [tcType] at h⟩
  | n + 1 => by
    obtain ⟨hE, hT⟩ := tc_pres M n
    constructor
    · intro e
      cases e <;> simp only [tcExpr]
      · exact typeAsExpr_pres hT _
      · exact tcVar_pres _
      · exact tcLet_pres hE hT _ _
      · exact typeAsExpr_pres hT _
      · exact tcAccess_pres hE _ _
      · exact tcStruct_pres hE _
      · exact tcCopy_pres hE _ _
      · exact tcUnion_pres hE hT _ _ _
      · exact tcSelect_pres hE _ _ _
      · exact typeAsExpr_pres hT _
      · exact tcFunc_pres hE hT _ _ _
      · exact tcPoly_pres hE _ _ _
      · exact tcPolyApply_pres hE _ _
      · exact tcList_pres hE _ _
      · exact tcLiteral_pres hE _ _
      · exact tcVar_pres _
      · exact typeAsExpr_pres hT _
      · exact tcCast_pres hE hT _ _ _
      · exact tcAbstractAccess_pres hE _
      · exact tcApply_pres hE _ _ _
    · intro e
      cases e <;> simp only [tcType]
      case typeOf => exact exprForType_quiet hE _
      case dataType => exact dataType_quiet hT _ _
      case funcType => exact tcFuncType_quiet hT _ _
      case packageType => exact Quiet.map some (.alloc rfl)
      all_goals exact exprAsType_quiet hE _

end Verif.Elab
