import Verif.Types.Model
/-!
# Kinds (C22)
-/
namespace Verif.Types

namespace R
@[simp] theorem ok_bind {α β : Type} (a : α) (f : α → R β) : (R.ok a >>= f) = f a := rfl
@[simp] theorem fail_bind {α β : Type} (f : α → R β) : ((R.fail : R α) >>= f) = R.fail := rfl
@[simp] theorem more_bind {α β : Type} (f : α → R β) : ((R.more : R α) >>= f) = R.more := rfl
@[simp] theorem pure_eq {α : Type} (a : α) : (pure a : R α) = R.ok a := rfl

theorem bind_eq_ok {α β : Type} {x : R α} {f : α → R β} {b : β} : (x >>= f) = .ok b ↔ ∃ a, x = .ok a ∧ f a = .ok b := by
  cases x with
  | ok a => simp
  | fail => simp
  | more => simp

theorem bind_ne_more {α β : Type} {x : R α} {f : α → R β} (h1 : x ≠ .more) (h2 : ∀ a, x = .ok a → f a ≠ .more) : (x >>= f) ≠ .more := by
  cases x with
  | ok a => exact h2 a rfl
  | fail => simp
  | more => exact absurd rfl h1
end R

/-- C22: `FbleKindsEqual` holds exactly for the same kind. -/
theorem C22_equal (a b : Kind) : kindsEqual a b = true ↔ a = b := by
  induction a generalizing b with
  | basic n => cases b <;> simp [kindsEqual]
  | poly x y ih1 ih2 => cases b <;> simp [kindsEqual, ih1, ih2]

/-- C22: adjusting is defined exactly when the level does not become negative; then the level of
the result is the adjusted level. -/
theorem C22_adjust (k : Kind) (i : Int) :
    ((kindLevel k : Int) + i < 0 → levelAdjusted k i = .fail) ∧
    (0 ≤ (kindLevel k : Int) + i → ∃ k', levelAdjusted k i = .ok k' ∧ (kindLevel k' : Int) = kindLevel k + i) := by
  induction k with
  | basic n =>
    refine ⟨fun h => ?_, fun h => ⟨.basic ((n : Int) + i).toNat, ?_, ?_⟩⟩
    · simp only [kindLevel] at h; rw [levelAdjusted, if_neg (by omega)]
    · simp only [kindLevel] at h; rw [levelAdjusted, if_pos (by omega)]
    · simp only [kindLevel] at h ⊢; omega
  | poly a r _ ih =>
    refine ⟨fun h => ?_, fun h => ?_⟩
    · rw [levelAdjusted, ih.1 h]; rfl
    · obtain ⟨k', h1, h2⟩ := ih.2 h
      exact ⟨.poly a k', by rw [levelAdjusted, h1]; rfl, h2⟩

/-- C22: adjusting twice adds up. -/
theorem C22_adjust_add (k k' k'' : Kind) (i j : Int) (h1 : levelAdjusted k i = .ok k') (h2 : levelAdjusted k' j = .ok k'') :
    levelAdjusted k (i + j) = .ok k'' := by
  induction k generalizing k' k'' with
  | basic n =>
    rw [levelAdjusted] at h1
    split at h1
    · cases h1
      rw [levelAdjusted] at h2
      split at h2
      · cases h2
        rw [levelAdjusted, if_pos (by omega)]
        congr 2
        omega
      · cases h2
    · cases h1
  | poly a r _ ih =>
    simp only [levelAdjusted, R.bind_eq_ok, R.pure_eq] at h1
    obtain ⟨r', h3, h4⟩ := h1
    cases h4
    simp only [levelAdjusted, R.bind_eq_ok, R.pure_eq] at h2
    obtain ⟨r'', h5, h6⟩ := h2
    cases h6
    rw [levelAdjusted, ih _ _ h3 h5]; rfl

/-- C22: adjusting by nothing changes nothing. -/
theorem C22_adjust_zero (k : Kind) : levelAdjusted k 0 = .ok k := by
  induction k with
  | basic n => rw [levelAdjusted, if_pos (by omega)]; simp
  | poly a r _ ih => rw [levelAdjusted, ih]; rfl

/-- C22: raising the level can be undone. -/
theorem C22_adjust_undo (k k' : Kind) (i : Int) (h : levelAdjusted k i = .ok k') : levelAdjusted k' (-i) = .ok k := by
  have hl := C22_adjust k i
  rcases Int.lt_or_le ((kindLevel k : Int) + i) 0 with hneg | hpos
  · rw [hl.1 hneg] at h; cases h
  · obtain ⟨k1, h1, h2⟩ := hl.2 hpos
    rw [h] at h1; cases h1
    obtain ⟨k2, h3, _⟩ := (C22_adjust k' (-i)).2 (by omega)
    have := C22_adjust_add k k' k2 i (-i) h h3
    rw [show i + -i = 0 by omega, C22_adjust_zero] at this
    cases this
    exact h3

theorem adjust_inj {k1 k2 k : Kind} {i : Int} (h1 : levelAdjusted k1 i = .ok k) (h2 : levelAdjusted k2 i = .ok k) : k1 = k2 := by
  have h1 := C22_adjust_undo _ _ _ h1
  have h2 := C22_adjust_undo _ _ _ h2
  rw [h1] at h2; cases h2; rfl

/-! ### Kinds of types -/

theorem get_append {h : Heap} {p : Ptr} {n : Node} (hg : get h p = .ok n) (x : Heap) : get (h ++ x) p = .ok n := by
  unfold get at hg ⊢
  cases hp : h[p]? with
  | none => rw [hp] at hg; cases hg
  | some m =>
    rw [hp] at hg; cases hg
    rw [List.getElem?_append_left (by rw [List.getElem?_eq_some_iff] at hp; exact hp.1), hp]

theorem get_lt {h : Heap} {p : Ptr} {n : Node} (hg : get h p = .ok n) : p < h.length := by
  unfold get at hg
  cases hp : h[p]? with
  | none => rw [hp] at hg; cases hg
  | some m => rw [List.getElem?_eq_some_iff] at hp; exact hp.1

theorem get_new (h : Heap) (n : Node) : get (new h n).1 (new h n).2 = .ok n := by
  simp [get, new]

/-- More types do not change the kind of a type. -/
theorem getKind_append (n : Nat) {h : Heap} {p : Ptr} {k : Kind} (hk : getKind n h p = .ok k) (x : Heap) : getKind n (h ++ x) p = .ok k := by
  induction n generalizing p k with
  | zero => cases hk
  | succ n ih =>
    rw [getKind, R.bind_eq_ok] at hk ⊢
    obtain ⟨nd, h1, h2⟩ := hk
    refine ⟨nd, get_append h1 x, ?_⟩
    cases nd with
    | data => exact h2
    | func => exact h2
    | package => exact h2
    | abstract => exact h2
    | var => exact h2
    | poly a b =>
      simp only [R.bind_eq_ok] at h2 ⊢
      obtain ⟨ka, h3, ka', h4, kb, h5, h6⟩ := h2
      exact ⟨ka, ih h3, ka', h4, kb, ih h5, h6⟩
    | polyApply p a =>
      simp only [R.bind_eq_ok] at h2 ⊢
      obtain ⟨ka, h3, h4⟩ := h2
      exact ⟨ka, ih h3, h4⟩
    | type t =>
      simp only [R.bind_eq_ok] at h2 ⊢
      obtain ⟨ka, h3, h4⟩ := h2
      exact ⟨ka, ih h3, h4⟩

theorem getKind_more (n m : Nat) (hm : n ≤ m) {h : Heap} {p : Ptr} {k : Kind} (hk : getKind n h p = .ok k) : getKind m h p = .ok k := by
  induction n generalizing p k m with
  | zero => cases hk
  | succ n ih =>
    obtain ⟨m, rfl⟩ : ∃ m', m = m' + 1 := ⟨m - 1, by omega⟩
    have hm : n ≤ m := by omega
    rw [getKind, R.bind_eq_ok] at hk ⊢
    obtain ⟨nd, h1, h2⟩ := hk
    refine ⟨nd, h1, ?_⟩
    cases nd with
    | data => exact h2
    | func => exact h2
    | package => exact h2
    | abstract => exact h2
    | var => exact h2
    | poly a b =>
      simp only [R.bind_eq_ok] at h2 ⊢
      obtain ⟨ka, h3, ka', h4, kb, h5, h6⟩ := h2
      exact ⟨ka, ih m hm h3, ka', h4, kb, ih m hm h5, h6⟩
    | polyApply p a =>
      simp only [R.bind_eq_ok] at h2 ⊢
      obtain ⟨ka, h3, h4⟩ := h2
      exact ⟨ka, ih m hm h3, h4⟩
    | type t =>
      simp only [R.bind_eq_ok] at h2 ⊢
      obtain ⟨ka, h3, h4⟩ := h2
      exact ⟨ka, ih m hm h3, h4⟩

/-- The kind of a type: what `FbleGetKind` returns. -/
def HasKind (h : Heap) (t : Ptr) (k : Kind) : Prop := ∃ n, getKind n h t = .ok k

theorem HasKind.unique {h t k k'} (h1 : HasKind h t k) (h2 : HasKind h t k') : k = k' := by
  obtain ⟨n, h1⟩ := h1
  obtain ⟨m, h2⟩ := h2
  have h1 := getKind_more n (n + m) (by omega) h1
  have h2 := getKind_more m (n + m) (by omega) h2
  rw [h1] at h2; cases h2; rfl

theorem HasKind.append {h t k} (h1 : HasKind h t k) (x : Heap) : HasKind (h ++ x) t k := h1.imp fun n h1 => getKind_append n h1 x

theorem HasKind.type {h t k k'} (h1 : HasKind h t k) (h2 : levelAdjusted k 1 = .ok k') (p : Ptr) (hg : get h p = .ok (.type t)) : HasKind h p k' := by
  obtain ⟨n, h1⟩ := h1
  refine ⟨n + 1, ?_⟩
  rw [getKind, hg]
  simp only [R.ok_bind]
  rw [h1]; exact h2

theorem wrapType_kind (n : Nat) {h : Heap} {t : Ptr} {k k' : Kind} (hk : HasKind h t k) (ha : levelAdjusted k n = .ok k') :
    HasKind (wrapType n h t).1 (wrapType n h t).2 k' := by
  induction n generalizing h t k with
  | zero =>
    rw [show ((0 : Nat) : Int) = 0 by rfl, C22_adjust_zero] at ha; cases ha
    exact hk
  | succ n ih =>
    rw [wrapType]
    obtain ⟨k1, h1, _⟩ := (C22_adjust k 1).2 (by omega)
    refine ih (k := k1) (HasKind.type (hk.append [.type t]) h1 _ (get_new h _)) ?_
    have h2 := C22_adjust_undo _ _ _ h1
    have := C22_adjust_add _ _ _ _ _ h2 ha
    rw [show (-1 + ((n + 1 : Nat) : Int)) = n by omega] at this
    exact this

/-- C22: `FbleNewVarType` makes a type of the kind that is asked for, whatever the kind. -/
theorem C22_var (h : Heap) (k : Kind) : ∃ h' t, newVarType h k = .ok (h', t) ∧ HasKind h' t k := by
  obtain ⟨k0, h1, h2⟩ := (C22_adjust k (-(kindLevel k : Int))).2 (by omega)
  have h3 := C22_adjust_undo _ _ _ h1
  refine ⟨_, _, by simp only [newVarType, h1, R.ok_bind, R.pure_eq]; rfl, ?_⟩
  refine wrapType_kind (kindLevel k) (k := k0) ⟨1, ?_⟩ (by rw [Int.neg_neg] at h3; exact h3)
  rw [getKind, get_new]
  rfl

theorem new_fst (h : Heap) (n : Node) : (new h n).1 = h ++ [n] := rfl

/-- C22: the kind of what `FbleNewPolyType` makes. -/
theorem C22_poly (n : Nat) (h h' : Heap) (arg body t : Ptr) (ka ka' kb : Kind) (hr : newPolyType n h arg body = .ok (h', t))
    (h1 : HasKind h arg ka) (h2 : levelAdjusted ka 1 = .ok ka') (h3 : HasKind h body kb) : HasKind h' t (.poly ka' kb) := by
  suffices (∃ x, h' = h ++ x) ∧ HasKind h' t (.poly ka' kb) from this.2
  induction n generalizing body t h' kb with
  | zero => cases hr
  | succ n ih =>
    rw [newPolyType, R.bind_eq_ok] at hr
    obtain ⟨nd, h4, h5⟩ := hr
    have other : R.ok (new h (.poly arg body)) = .ok (h', t) → (∃ x, h' = h ++ x) ∧ HasKind h' t (.poly ka' kb) := by
      intro he
      injection he with he
      cases he
      refine ⟨⟨_, rfl⟩, ?_⟩
      obtain ⟨i, h1⟩ := h1
      obtain ⟨j, h3⟩ := h3
      refine ⟨i + j + 1, ?_⟩
      have hg := get_new h (.poly arg body)
      unfold new at hg
      rw [getKind, hg]
      simp only [R.ok_bind, R.bind_eq_ok, R.pure_eq]
      exact ⟨ka, getKind_more _ _ (by omega) (getKind_append _ h1 _), ka', h2, kb, getKind_more _ _ (by omega) (getKind_append _ h3 _), rfl⟩
    cases nd with
    | type u =>
      simp only [R.bind_eq_ok, R.pure_eq] at h5
      obtain ⟨⟨h1', b⟩, h6, h7⟩ := h5
      injection h7 with h7
      cases h7
      -- the kind of `u`
      obtain ⟨m, h3⟩ := h3
      obtain ⟨m, rfl⟩ : ∃ m', m = m' + 1 := ⟨m - 1, by cases m with | zero => cases h3 | succ m => omega⟩
      rw [getKind, h4] at h3
      simp only [R.ok_bind, R.bind_eq_ok] at h3
      obtain ⟨ku, h8, h9⟩ := h3
      obtain ⟨⟨x, hx⟩, h10⟩ := ih _ _ _ _ h6 ⟨m, h8⟩
      subst hx
      refine ⟨⟨x ++ [.type b], by simp⟩, ?_⟩
      refine HasKind.type (h10.append _) ?_ _ (get_new _ _)
      rw [levelAdjusted, h9]; rfl
    | _ => exact other h5

/-- C22: the kind of what `FbleNewPolyApplyType` makes. -/
theorem C22_apply (n : Nat) (h h' : Heap) (poly arg t : Ptr) (ka kr : Kind) (hr : newPolyApplyType n h poly arg = .ok (h', t))
    (h3 : HasKind h poly (.poly ka kr)) : HasKind h' t kr := by
  suffices (∃ x, h' = h ++ x) ∧ HasKind h' t kr from this.2
  induction n generalizing poly t h' kr with
  | zero => cases hr
  | succ n ih =>
    rw [newPolyApplyType, R.bind_eq_ok] at hr
    obtain ⟨nd, h4, h5⟩ := hr
    have other : R.ok (new h (.polyApply poly arg)) = .ok (h', t) → (∃ x, h' = h ++ x) ∧ HasKind h' t kr := by
      intro he
      injection he with he
      cases he
      refine ⟨⟨_, rfl⟩, ?_⟩
      obtain ⟨j, h3⟩ := h3
      refine ⟨j + 1, ?_⟩
      have hg := get_new h (.polyApply poly arg)
      unfold new at hg
      rw [getKind, hg]
      simp only [R.ok_bind, R.bind_eq_ok, R.pure_eq]
      exact ⟨_, getKind_append _ h3 _, rfl⟩
    cases nd with
    | type u =>
      simp only [R.bind_eq_ok, R.pure_eq] at h5
      obtain ⟨⟨h1', b⟩, h6, h7⟩ := h5
      injection h7 with h7
      cases h7
      obtain ⟨m, h3⟩ := h3
      obtain ⟨m, rfl⟩ : ∃ m', m = m' + 1 := ⟨m - 1, by cases m with | zero => cases h3 | succ m => omega⟩
      rw [getKind, h4] at h3
      simp only [R.ok_bind, R.bind_eq_ok] at h3
      obtain ⟨ku, h8, h9⟩ := h3
      cases ku with
      | basic l => rw [levelAdjusted] at h9; split at h9 <;> cases h9
      | poly a r =>
        simp only [levelAdjusted, R.bind_eq_ok, R.pure_eq] at h9
        obtain ⟨r', h9, h11⟩ := h9
        cases h11
        obtain ⟨⟨x, hx⟩, h10⟩ := ih _ _ _ _ h6 ⟨m, h8⟩
        subst hx
        refine ⟨⟨x ++ [.type b], by simp⟩, ?_⟩
        exact HasKind.type (h10.append _) h9 _ (get_new _ _)
    | _ => exact other h5

/-- The kind `<@>@`: a type level function, of a variable made for it. -/
example : ∃ h' t, newVarType [] (.poly (.basic 1) (.basic 1)) = .ok (h', t) ∧ h'.length = 2 ∧
    getKind 2 h' t = .ok (.poly (.basic 1) (.basic 1)) := ⟨_, _, rfl, rfl, rfl⟩

end Verif.Types
