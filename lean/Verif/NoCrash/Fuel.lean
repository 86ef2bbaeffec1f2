import Verif.Elab.Model
/-
The fuel of the model of the type checker has no meaning: with more fuel the result is the same, if there is one.
-/
namespace Verif.Fuel
open Types Elab

/-- `y` is what `x` is, unless the fuel did not suffice for `x`. -/
def Le {α : Type} (x y : R α) : Prop := x = .more ∨ x = y

theorem Le.rfl {α : Type} {x : R α} : Le x x := .inr (Eq.refl x)
theorem Le.more {α : Type} {x : R α} : Le .more x := .inl (Eq.refl _)
theorem Le.trans {α : Type} {x y z : R α} (h : Le x y) (g : Le y z) : Le x z := by
  rcases h with rfl | rfl
  · exact .inl (Eq.refl _)
  · exact g
theorem Le.bind {α β : Type} {x y : R α} {f g : α → R β} (h : Le x y) (k : ∀ a, Le (f a) (g a)) : Le (x >>= f) (y >>= g) := by
  rcases h with rfl | rfl
  · exact .inl (Eq.refl _)
  · cases x with
    | fail => exact .rfl
    | more => exact .inl (Eq.refl _)
    | ok a => exact k a

syntax "mono" "[" term,* "]" : tactic
macro_rules
  | `(tactic| mono [$ts,*]) => do
    let ts := ts.getElems
    let mut alts : Array (Lean.TSyntax `tactic) := #[← `(tactic| exact Le.rfl), ← `(tactic| exact Le.more)]
    for t in ts do alts := alts.push (← `(tactic| apply $t))
    alts := alts.push (← `(tactic| apply Le.bind))
    alts := alts.push (← `(tactic| intro _))
    alts := alts.push (← `(tactic| split))
    `(tactic| repeat' first $[| $alts:tactic]*)

theorem getKind_le : (n : Nat) → (h : Heap) → (t : Ptr) → Le (getKind n h t) (getKind (n + 1) h t)
  | 0, _, _ => .more
  | n + 1, h, t => by
    have ih := getKind_le n
    rw [getKind, getKind]
    refine .bind .rfl fun a => ?_
    cases a <;> simp only <;> mono [ih]

theorem assignVarType_le : (n : Nat) → (h : Heap) → (t u : Ptr) → Le (assignVarType n h t u) (assignVarType (n + 1) h t u)
  | 0, _, _, _ => .more
  | n + 1, h, t, u => by
    have ih := assignVarType_le n
    rw [assignVarType, assignVarType]
    refine .bind .rfl fun a => ?_
    cases a <;> simp only <;> mono [ih, getKind_le]

theorem newPolyType_le : (n : Nat) → (h : Heap) → (t u : Ptr) → Le (newPolyType n h t u) (newPolyType (n + 1) h t u)
  | 0, _, _, _ => .more
  | n + 1, h, t, u => by
    have ih := newPolyType_le n
    rw [newPolyType, newPolyType]
    refine .bind .rfl fun a => ?_
    cases a <;> simp only <;> mono [ih]

theorem newPolyApplyType_le : (n : Nat) → (h : Heap) → (t u : Ptr) → Le (newPolyApplyType n h t u) (newPolyApplyType (n + 1) h t u)
  | 0, _, _, _ => .more
  | n + 1, h, t, u => by
    have ih := newPolyApplyType_le n
    rw [newPolyApplyType, newPolyApplyType]
    refine .bind .rfl fun a => ?_
    cases a <;> simp only <;> mono [ih]

theorem orElse_le {a a' : R Bool} {b b' : Unit → R Bool} (h : Le a a') (g : Le (b ()) (b' ())) : Le (orElse a b) (orElse a' b') := by
  unfold orElse
  mono [h, g]

theorem anyField_le {f g : Ptr → R Bool} (h : ∀ t, Le (f t) (g t)) : (fs : List (Name × Ptr)) → Le (anyField f fs) (anyField g fs)
  | [] => .rfl
  | (_, t) :: fs => by
    rw [anyField, anyField]
    exact orElse_le (h t) (anyField_le h fs)

theorem hasParam_le (h : Heap) (p : Ptr) : (n : Nat) → (vs : List Ptr) → (t : Ptr) → Le (hasParam h p n vs t) (hasParam h p (n + 1) vs t)
  | 0, _, _ => .more
  | n + 1, vs, t => by
    have ih := hasParam_le h p n
    rw [hasParam, hasParam]
    split
    · exact .rfl
    · refine .bind .rfl fun a => ?_
      cases a <;> simp only <;> mono [ih, orElse_le, (anyField_le fun t => ih _ t)]

theorem substFields_le {f g : Heap → Ptr → R (Heap × Ptr)} (k : ∀ h t, Le (f h t) (g h t)) : (h : Heap) → (fs : List (Name × Ptr)) → Le (substFields f h fs) (substFields g h fs)
  | _, [] => .rfl
  | h, (x, t) :: fs => by
    rw [substFields, substFields]
    mono [k, substFields_le k]

theorem subst_le (p a : Ptr) : (n : Nat) → (tps : List (Ptr × Ptr)) → (h : Heap) → (t : Ptr) → Le (subst p a n tps h t) (subst p a (n + 1) tps h t)
  | 0, _, _, _ => .more
  | n + 1, tps, h, t => by
    have ih := subst_le p a n
    rw [subst, subst]
    refine .bind (hasParam_le _ _ _ _ _) fun b => ?_
    cases b
    · exact .rfl
    · refine .bind .rfl fun a => ?_
      cases a <;> simp only <;> mono [ih, assignVarType_le, substFields_le]

theorem normal_le : (n : Nat) → (nn : List Ptr) → (h : Heap) → (t : Ptr) → Le (normal n nn h t) (normal (n + 1) nn h t)
  | 0, _, _, _ => .more
  | n + 1, nn, h, t => by
    have ih := normal_le n
    rw [normal, normal]
    split
    · exact .rfl
    · refine .bind .rfl fun a => ?_
      cases a <;> simp only <;> mono [ih, subst_le]

theorem normalType_le (n : Nat) (h : Heap) (t : Ptr) : Le (normalType n h t) (normalType (n + 1) h t) := by
  unfold normalType
  mono [normal_le]

theorem stripPoly_le : (n : Nat) → (h : Heap) → (t : Option Ptr) → Le (stripPoly n h t) (stripPoly (n + 1) h t)
  | 0, _, _ => .more
  | n + 1, h, t => by
    have ih := stripPoly_le n
    cases t with
    | none => exact .rfl
    | some t =>
      rw [stripPoly, stripPoly]
      refine .bind .rfl fun a => ?_
      cases a <;> simp only <;> mono [ih, normal_le]

theorem stripType_le : (n : Nat) → (h : Heap) → (t : Option Ptr) → Le (stripType n h t) (stripType (n + 1) h t)
  | 0, _, _ => .more
  | n + 1, h, t => by
    have ih := stripType_le n
    cases t with
    | none => exact .rfl
    | some t =>
      rw [stripType, stripType]
      refine .bind .rfl fun a => ?_
      cases a <;> simp only <;> mono [ih, normal_le]

theorem typeIsVacuous_le (n : Nat) (h : Heap) (t : Ptr) : Le (typeIsVacuous n h t) (typeIsVacuous (n + 1) h t) := by
  unfold typeIsVacuous
  mono [normal_le, stripType_le, stripPoly_le]

theorem andEq_le {x x' : EqRes} {y y' : Heap → Vars → EqRes} (h : Le x x') (g : ∀ h v, Le (y h v) (y' h v)) : Le (andEq x y) (andEq x' y') := by
  unfold andEq
  mono [h, g]

theorem fieldsEqual_le {f g : Heap → Vars → Ptr → Ptr → EqRes} (k : ∀ h v a b, Le (f h v a b) (g h v a b)) : (h : Heap) → (v : Vars) → (as bs : List (Name × Ptr)) →
    Le (fieldsEqual f h v as bs) (fieldsEqual g h v as bs)
  | h, v, [], bs => .rfl
  | h, v, _ :: _, [] => .rfl
  | h, v, (x, a) :: as, (y, b) :: bs => by
    rw [fieldsEqual, fieldsEqual]
    split
    · exact .rfl
    · exact andEq_le (k _ _ _ _) fun _ _ => fieldsEqual_le k _ _ _ _

theorem infer_le (n : Nat) (h : Heap) (v : Vars) (a b : Ptr) : Le (infer n h v a b) (infer (n + 1) h v a b) := by
  unfold infer
  split
  · exact .rfl
  · split
    · exact .rfl
    · mono [normalType_le]
    · exact .rfl

theorem sameTag_le {n : Nat} {f g : List (Ptr × Ptr) → Heap → Vars → Ptr → Ptr → EqRes} (k : ∀ e h v a b, Le (f e h v a b) (g e h v a b)) (e : List (Ptr × Ptr)) (h : Heap) (v : Vars)
    (a b : Ptr) (na nb : Node) : Le (sameTag n f e h v a b na nb) (sameTag (n + 1) g e h v a b na nb) := by
  unfold sameTag
  split <;> mono [k, andEq_le, fieldsEqual_le, getKind_le]

theorem compareNormal_le {n : Nat} {f g : List (Ptr × Ptr) → Heap → Vars → Ptr → Ptr → EqRes} (k : ∀ e h v a b, Le (f e h v a b) (g e h v a b)) (e : List (Ptr × Ptr)) (h : Heap) (v : Vars)
    (a b : Ptr) : Le (compareNormal n f e h v a b) (compareNormal (n + 1) g e h v a b) := by
  unfold compareNormal
  refine .bind .rfl fun na => .bind .rfl fun nb => ?_
  cases na <;> cases nb <;> simp only <;> mono [k, (sameTag_le k)]

theorem typesEqual_le : (n : Nat) → (e : List (Ptr × Ptr)) → (h : Heap) → (v : Vars) → (a b : Ptr) → Le (typesEqual n e h v a b) (typesEqual (n + 1) e h v a b)
  | 0, _, _, _, _, _ => .more
  | n + 1, e, h, v, a, b => by
    have ih := typesEqual_le n
    rw [typesEqual, typesEqual]
    mono [normalType_le, infer_le, (compareNormal_le ih)]

theorem fbleTypesEqual_le (n : Nat) (h : Heap) (a b : Ptr) : Le (fbleTypesEqual n h a b) (fbleTypesEqual (n + 1) h a b) := by
  unfold fbleTypesEqual
  mono [typesEqual_le]

theorem listElementType_le (n : Nat) (h : Heap) (a : Ptr) : Le (listElementType n h a) (listElementType (n + 1) h a) := by
  unfold listElementType
  mono [normalType_le, fbleTypesEqual_le]

/-! ### The type checker -/

/-- The same for steps of the type checker. -/
structure LeT {α : Type} (m m' : TM α) : Prop where
  run : ∀ s, Le (m s) (m' s)

theorem LeT.rfl {α : Type} {m : TM α} : LeT m m := ⟨fun _ => .rfl⟩
theorem LeT.more {α : Type} {m : TM α} : LeT (fun _ => .more) m := ⟨fun _ => .more⟩
theorem LeT.bind {α β : Type} {x y : TM α} {f g : α → TM β} (h : LeT x y) (k : ∀ a, LeT (f a) (g a)) : LeT (x >>= f) (y >>= g) :=
  ⟨fun s => Le.bind (h.run s) fun a => (k a.2).run a.1⟩
theorem LeT.map {α β : Type} {x y : TM α} {f : α → β} (h : LeT x y) : LeT (f <$> x) (f <$> y) := by
  show LeT (x >>= _) (y >>= _)
  exact h.bind fun _ => .rfl
theorem LeT.liftH {α : Type} {f g : Heap → R (Heap × α)} (h : ∀ s, Le (f s) (g s)) : LeT (Elab.liftH f) (Elab.liftH g) :=
  ⟨fun s => Le.bind (h s.heap) fun _ => .rfl⟩
theorem LeT.readH {α : Type} {f g : Heap → R α} (h : ∀ s, Le (f s) (g s)) : LeT (Elab.readH f) (Elab.readH g) :=
  ⟨fun s => Le.bind (h s.heap) fun _ => .rfl⟩

syntax "monoT" "[" term,* "]" : tactic
macro_rules
  | `(tactic| monoT [$ts,*]) => do
    let ts := ts.getElems
    let mut alts : Array (Lean.TSyntax `tactic) := #[← `(tactic| exact LeT.rfl), ← `(tactic| exact LeT.more), ← `(tactic| exact Le.rfl)]
    for t in ts do alts := alts.push (← `(tactic| apply $t))
    alts := alts.push (← `(tactic| apply LeT.bind))
    alts := alts.push (← `(tactic| apply LeT.liftH))
    alts := alts.push (← `(tactic| apply LeT.readH))
    alts := alts.push (← `(tactic| intro _))
    alts := alts.push (← `(tactic| split))
    `(tactic| repeat' first $[| $alts:tactic]*)

theorem checkNameSpace_le (n : Nat) (x : Name) (t : Ptr) : LeT (checkNameSpace n x t) (checkNameSpace (n + 1) x t) := by
  unfold checkNameSpace
  exact LeT.readH fun h => by mono [getKind_le]

theorem depoly_le : (n : Nat) → (h : Heap) → (t : Ptr) → Le (depoly n h t) (depoly (n + 1) h t)
  | 0, _, _ => .more
  | n + 1, h, t => by
    have ih := depoly_le n
    rw [depoly, depoly]
    mono [normalType_le, ih]

theorem polyApply_le (n : Nat) (p : Ptr × Compile.Tc) (t : Ptr) : LeT (Elab.polyApply n p t) (Elab.polyApply (n + 1) p t) := by
  unfold Elab.polyApply
  refine .bind (.readH fun h => getKind_le _ _ _) fun k => ?_
  cases k <;> simp only <;> monoT [getKind_le, newPolyApplyType_le, normalType_le]

theorem inferLoop_le (n : Nat) : (v : Vars) → (as bs : List Ptr) → (h : Heap) → Le (inferLoop n v as bs h) (inferLoop (n + 1) v as bs h)
  | v, [], bs, h => .rfl
  | v, _ :: _, [], h => .rfl
  | v, a :: as, b :: bs, h => by
    rw [inferLoop, inferLoop]
    mono [typesEqual_le, inferLoop_le n]

theorem applyVars_le (n : Nat) : (vars : Vars) → (r : Ptr × Compile.Tc) → LeT (applyVars n r vars) (applyVars (n + 1) r vars)
  | [], r => .rfl
  | (_, none) :: _, r => .rfl
  | (_, some t) :: vars, r => by
    rw [applyVars, applyVars]
    monoT [polyApply_le, applyVars_le n]

theorem typeInferArgs_le (n : Nat) (vars : Vars) (as bs : List Ptr) (p : Ptr × Compile.Tc) : LeT (typeInferArgs n vars as bs p) (typeInferArgs (n + 1) vars as bs p) := by
  unfold typeInferArgs
  monoT [inferLoop_le, applyVars_le]

section
variable {n : Nat} {f g : Rec} {f' g' : RecT}

theorem tcEach_le (k : ∀ e, LeT (f e) (g e)) : (es : List Expr) → LeT (tcEach f es) (tcEach g es)
  | [] => .rfl
  | e :: es => by
    rw [tcEach, tcEach]
    monoT [k, tcEach_le k]

theorem bindTypes_le (k : ∀ e, LeT (f' e) (g' e)) : (bs : List Binding) → (prev : List Name) → LeT (bindTypes n f' prev bs) (bindTypes (n + 1) g' prev bs)
  | [], _ => .rfl
  | b :: bs, prev => by
    rw [bindTypes, bindTypes]
    refine .bind ?_ fun t => .bind ?_ fun ok => .bind (bindTypes_le k bs _) fun ts => ?_
    · monoT [k]
    · monoT [checkNameSpace_le]
    · monoT []

theorem bindDefs_le (k : ∀ e, LeT (f e) (g e)) : (bs : List Binding) → (ts : List Ptr) → LeT (bindDefs n f bs ts) (bindDefs (n + 1) g bs ts)
  | [], _ => .rfl
  | _ :: _, [] => .rfl
  | b :: bs, t :: ts => by
    rw [bindDefs, bindDefs]
    refine .bind (k _) fun t => ?_
    cases t with
    | none => exact .rfl
    | some t =>
      refine .bind ?_ fun ok => ?_
      · monoT [fbleTypesEqual_le, getKind_le]
      · monoT [bindDefs_le k]

theorem bindAssign_le : (bs : List Binding) → (ts ds : List Ptr) → LeT (bindAssign n bs ts ds) (bindAssign (n + 1) bs ts ds)
  | [], _, _ => .rfl
  | _ :: _, [], _ => .rfl
  | _ :: _, _ :: _, [] => .rfl
  | b :: bs, t :: ts, d :: ds => by
    rw [bindAssign, bindAssign]
    refine .bind ?_ fun t => .bind (bindAssign_le bs ts ds) fun _ => .rfl
    split
    · exact .rfl
    · refine .bind (.liftH fun h => ?_) fun _ => .rfl
      mono [assignVarType_le]

theorem anyVacuous_le : (ts : List Ptr) → LeT (anyVacuous n ts) (anyVacuous (n + 1) ts)
  | [] => .rfl
  | t :: ts => by
    rw [anyVacuous, anyVacuous]
    monoT [typeIsVacuous_le, anyVacuous_le]

theorem letInner_le (k : ∀ e, LeT (f e) (g e)) (bs : List Binding) (ts : List Ptr) (body : Expr) : LeT (letInner n f bs ts body) (letInner (n + 1) g bs ts body) := by
  unfold letInner
  monoT [(bindDefs_le k), bindAssign_le, anyVacuous_le, k]

theorem tcLet_le (k : ∀ e, LeT (f e) (g e)) (k' : ∀ e, LeT (f' e) (g' e)) (bs : List Binding) (body : Expr) : LeT (tcLet n f f' bs body) (tcLet (n + 1) g g' bs body) := by
  unfold tcLet
  monoT [(bindTypes_le k'), (letInner_le k)]

theorem checkNames_le : (as : List (Name × Option (Ptr × Compile.Tc))) → LeT (checkNames n as) (checkNames (n + 1) as)
  | [] => .rfl
  | (_, none) :: as => by
    rw [checkNames, checkNames]
    monoT [checkNames_le]
  | (_, some (_, _)) :: as => by
    rw [checkNames, checkNames]
    monoT [checkNames_le, checkNameSpace_le]

theorem tcStruct_le (k : ∀ e, LeT (f e) (g e)) (as : List (Name × Expr)) : LeT (tcStruct n f as) (tcStruct (n + 1) g as) := by
  unfold tcStruct
  monoT [(tcEach_le k), checkNames_le]

theorem copyLoop_le : (fs : List (Name × Ptr)) → (as : List (Name × Option (Ptr × Compile.Tc))) → LeT (copyLoop n fs as) (copyLoop (n + 1) fs as)
  | [], _ => .rfl
  | (x, ft) :: fs, [] => by
    rw [copyLoop, copyLoop]
    monoT [copyLoop_le]
  | (x, ft) :: fs, (y, r) :: as => by
    rw [copyLoop.eq_def, copyLoop.eq_def (n + 1)]
    simp only
    split
    · split
      · exact .rfl
      · monoT [copyLoop_le, fbleTypesEqual_le]
    · monoT [copyLoop_le]

theorem tcCopy_le (k : ∀ e, LeT (f e) (g e)) (src : Expr) (as : List (Name × Expr)) : LeT (tcCopy n f src as) (tcCopy (n + 1) g src as) := by
  unfold tcCopy
  monoT [k, (tcEach_le k), copyLoop_le, normalType_le]

theorem tcUnion_le (k : ∀ e, LeT (f e) (g e)) (k' : ∀ e, LeT (f' e) (g' e)) (t : Expr) (x : Name) (a : Expr) : LeT (tcUnion n f f' t x a) (tcUnion (n + 1) g g' t x a) := by
  unfold tcUnion
  monoT [k, k', depoly_le, typeInferArgs_le]

theorem selLoop_le (k : ∀ e, LeT (f e) (g e)) (d : Bool) : (fs : List (Name × Ptr)) → (i : Nat) → (cs : List (Name × Expr)) → (rt : Option Ptr) →
    LeT (selLoop n f d fs i cs rt) (selLoop (n + 1) g d fs i cs rt)
  | [], _, _, _ => .rfl
  | _ :: fs, i, [], rt => by
    rw [selLoop, selLoop]
    monoT [(selLoop_le k d)]
  | (x, _) :: fs, i, (y, e) :: cs, rt => by
    rw [selLoop, selLoop]
    split
    · refine .bind (k e) fun r => ?_
      cases r <;> cases rt <;> simp only <;> monoT [(selLoop_le k d), fbleTypesEqual_le]
    · monoT [(selLoop_le k d)]

theorem tcSelect_le (k : ∀ e, LeT (f e) (g e)) (c : Expr) (cs : List (Name × Expr)) (d : Option Expr) : LeT (tcSelect n f c cs d) (tcSelect (n + 1) g c cs d) := by
  unfold tcSelect
  monoT [k, (selLoop_le k), normalType_le]

theorem tcFunc_le (k : ∀ e, LeT (f e) (g e)) (k' : ∀ e, LeT (f' e) (g' e)) (x : Name) (t b : Expr) : LeT (tcFunc f f' x t b) (tcFunc g g' x t b) := by
  unfold tcFunc
  monoT [k, k']

theorem tcPoly_le (k : ∀ e, LeT (f e) (g e)) (x : Name) (kd : Kind) (b : Expr) : LeT (tcPoly n f x kd b) (tcPoly (n + 1) g x kd b) := by
  unfold tcPoly
  monoT [k, newPolyType_le]

theorem exprForType_le (k : ∀ e, LeT (f e) (g e)) (e : Expr) : LeT (exprForType f e) (exprForType g e) := by
  unfold exprForType
  monoT [k]

theorem tcPolyApply_le (k : ∀ e, LeT (f e) (g e)) (p a : Expr) : LeT (tcPolyApply n f p a) (tcPolyApply (n + 1) g p a) := by
  unfold tcPolyApply
  monoT [k, (exprForType_le k), polyApply_le]

theorem tcList_le (k : ∀ e, LeT (f e) (g e)) (h : Expr) (as : List Expr) : LeT (tcList n f h as) (tcList (n + 1) g h as) := by
  unfold tcList
  monoT [k, depoly_le, listElementType_le, (tcEach_le k), typeInferArgs_le, normalType_le]

theorem letters_le (u : Ptr) (fs : List (Name × Ptr)) : (i : Nat) → (w : List Char) → LeT (letters n u fs i w) (letters (n + 1) u fs i w)
  | 0, _ => .rfl
  | i + 1, w => by
    rw [letters, letters]
    split
    · exact .rfl
    simp only
    monoT [letters_le u fs, fbleTypesEqual_le]

theorem tcLiteral_le (k : ∀ e, LeT (f e) (g e)) (h : Expr) (w : List Char) : LeT (tcLiteral n f h w) (tcLiteral (n + 1) g h w) := by
  unfold tcLiteral
  monoT [k, listElementType_le, letters_le, normalType_le]

theorem castEqual_le (p t v : Ptr) (h : Heap) : Le (castEqual n p t v h) (castEqual (n + 1) p t v h) := by
  unfold castEqual
  mono [fbleTypesEqual_le]

theorem tcCast_le {M : List Name} (k : ∀ e, LeT (f e) (g e)) (k' : ∀ e, LeT (f' e) (g' e)) (p t v : Expr) : LeT (tcCast M n f f' p t v) (tcCast M (n + 1) g g' p t v) := by
  unfold tcCast
  monoT [k, k', normalType_le, castEqual_le]

theorem tcAbstractAccess_le {M : List Name} (k : ∀ e, LeT (f e) (g e)) (v : Expr) : LeT (tcAbstractAccess M n f v) (tcAbstractAccess M (n + 1) g v) := by
  unfold tcAbstractAccess
  monoT [k, normalType_le]

theorem tcAccess_le (k : ∀ e, LeT (f e) (g e)) (v : Expr) (x : Name) : LeT (tcAccess n f v x) (tcAccess (n + 1) g v x) := by
  unfold tcAccess
  monoT [k, normalType_le]

theorem applyLoop_le : (as : List (Ptr × Compile.Tc)) → (r : Ptr × Compile.Tc) → LeT (applyLoop n r as) (applyLoop (n + 1) r as)
  | [], _ => .rfl
  | a :: as, r => by
    rw [applyLoop, applyLoop]
    monoT [depoly_le, typeInferArgs_le, normalType_le, applyLoop_le]

theorem applyType_le {M : List Name} (m : Ptr × Compile.Tc) (t : Ptr) (as : List (Ptr × Compile.Tc)) : LeT (applyType M n m t as) (applyType M (n + 1) m t as) := by
  unfold applyType
  monoT [depoly_le, typeInferArgs_le, normalType_le, applyLoop_le]

theorem tcApply_le {M : List Name} (k : ∀ e, LeT (f e) (g e)) (m : Expr) (as : List Expr) (b : Bool) : LeT (tcApply M n f m as b) (tcApply M (n + 1) g m as b) := by
  unfold tcApply
  monoT [k, (tcEach_le k), normalType_le, applyLoop_le, applyType_le]

theorem dataFields_le (k : ∀ e, LeT (f' e) (g' e)) : (fs : List (Name × Expr)) → (prev : List Name) → LeT (dataFields n f' prev fs) (dataFields (n + 1) g' prev fs)
  | [], _ => .rfl
  | (x, e) :: fs, prev => by
    rw [dataFields, dataFields]
    monoT [k, checkNameSpace_le, dataFields_le k]

theorem tcFuncType_le (k : ∀ e, LeT (f' e) (g' e)) (a r : Expr) : LeT (tcFuncType f' a r) (tcFuncType g' a r) := by
  unfold tcFuncType
  monoT [k]

theorem typeAsExpr_le (k : ∀ e, LeT (f' e) (g' e)) (e : Expr) : LeT (typeAsExpr f' e) (typeAsExpr g' e) := by
  unfold typeAsExpr
  monoT [k]

theorem exprAsType_le (k : ∀ e, LeT (f e) (g e)) (e : Expr) : LeT (exprAsType f e) (exprAsType g e) := by
  unfold exprAsType
  monoT [(exprForType_le k)]

end

theorem tc_le (M : List Name) : (n : Nat) → (∀ e, LeT (tcExpr M n e) (tcExpr M (n + 1) e)) ∧ ∀ e, LeT (tcType M n e) (tcType M (n + 1) e)
  | 0 => ⟨fun e => by rw [tcExpr.eq_def]; exact .more, fun e => by rw [tcType.eq_def]; exact .more⟩
  | n + 1 => by
    obtain ⟨k, k'⟩ := tc_le M n
    constructor
    · intro e
      rw [tcExpr.eq_def, tcExpr.eq_def M (n + 2)]
      cases e with
      | dataType _ _ => exact typeAsExpr_le k' _
      | funcType _ _ => exact typeAsExpr_le k' _
      | packageType _ => exact typeAsExpr_le k' _
      | typeOf _ => exact typeAsExpr_le k' _
      | var _ => exact .rfl
      | modulePath _ => exact .rfl
      | letE _ _ => exact tcLet_le k k' _ _
      | structImplicit _ => exact tcStruct_le k _
      | structCopy _ _ => exact tcCopy_le k _ _
      | unionValue _ _ _ => exact tcUnion_le k k' _ _ _
      | select _ _ _ => exact tcSelect_le k _ _ _
      | func _ _ _ => exact tcFunc_le k k' _ _ _
      | polyValue _ _ _ => exact tcPoly_le k _ _ _
      | polyApply _ _ => exact tcPolyApply_le k _ _
      | list _ _ => exact tcList_le k _ _
      | literal _ _ => exact tcLiteral_le k _ _
      | abstractCast _ _ _ => exact tcCast_le k k' _ _ _
      | abstractAccess _ => exact tcAbstractAccess_le k _
      | dataAccess _ _ => exact tcAccess_le k _ _
      | apply _ _ _ => exact tcApply_le k _ _ _
    · intro e
      rw [tcType.eq_def, tcType.eq_def M (n + 2)]
      cases e with
      | typeOf _ => exact exprForType_le k _
      | dataType dt fs => exact .bind (dataFields_le k' _ _) fun _ => .rfl
      | funcType _ _ => exact tcFuncType_le k' _ _
      | packageType _ => exact .rfl
      | _ => exact exprAsType_le k _

theorem tcModules_le (n : Nat) : (ms done : List Module) → (types : List (Option Ptr)) → (h : Heap) → Le (tcModules n done types ms h) (tcModules (n + 1) done types ms h)
  | [], _, _, _ => .rfl
  | m :: ms, done, types, h => by
    rw [tcModules, tcModules]
    refine .bind ?_ fun r => .bind (tcModules_le n ms _ _ _) fun _ => .rfl
    split
    · exact .rfl
    · unfold tcModule
      exact .bind (((tc_le _ n).1 _).run _) fun _ => .rfl

theorem tcProgram_le {n m : Nat} (h : n ≤ m) (program : List Module) : Le (tcProgram n program) (tcProgram m program) := by
  induction h with
  | refl => exact .rfl
  | @step m _ ih => exact ih.trans (.bind (tcModules_le m program [] [] []) fun _ => .rfl)

end Verif.Fuel
