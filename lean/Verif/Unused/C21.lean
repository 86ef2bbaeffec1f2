import Verif.Unused.Spec
import Mathlib.Data.List.Perm.Subperm
/-
C21.
-/
namespace Verif.Unused
open Types (Name Kind DataKind namesEqual)
open Elab

theorem namesEqual_iff' {a b : Name} : namesEqual a b = true ↔ a = b := by
  cases a; cases b; simp [namesEqual, and_comm]

/-- Which variable a name refers to. -/
def First (xs : List Name) (i : Nat) (x : Name) : Prop := xs[i]? = some x ∧ ∀ (j : Nat), j < i → xs[j]? ≠ some x

def flag (vars : Vars) (i : Nat) : Bool := (vars[i]?.map (·.2)).getD false

def names (vars : Vars) : List Name := vars.map (·.1)

def Warning.place : Warning → List Nat
  | .binding p _ _ => p
  | .argument p _ => p

@[simp] theorem place_within {p : List Nat} {w : Warning} : (w.within p).place = p ++ w.place := by cases w <;> rfl

theorem within_inj {p : List Nat} {w w' : Warning} (h : w.within p = w'.within p) : w = w' := by
  cases w <;> cases w' <;> simp [Warning.within] at h ⊢ <;> assumption

theorem within_within {p q : List Nat} {w : Warning} : (w.within q).within p = w.within (p ++ q) := by cases w <;> simp [Warning.within]

/-- The visit uses the variables in `U` and prints the warnings in `W`, each once. -/
structure Good (v : Visit) (U : Name → Prop) (W : Warning → Prop) : Prop where
  names : ∀ vars, names (v vars).1 = names vars
  flags : ∀ vars (i : Nat), flag (v vars).1 i = true ↔ flag vars i = true ∨ ∃ x, U x ∧ First (Unused.names vars) i x
  warns : ∀ vars w, w ∈ (v vars).2 ↔ W w
  nodup : ∀ vars, (v vars).2.Nodup

theorem Good.congr {v : Visit} {U U' : Name → Prop} {W W' : Warning → Prop} (h : Good v U W) (hU : ∀ x, U x ↔ U' x) (hW : ∀ w, W w ↔ W' w) : Good v U' W' := by
  have e1 : U = U' := funext fun x => propext (hU x)
  have e2 : W = W' := funext fun x => propext (hW x)
  subst e1 e2
  exact h

theorem Good.skip : Good skip (fun _ => False) (fun _ => False) where
  names _ := rfl
  flags _ _ := by simp [Unused.skip]
  warns _ _ := by simp [Unused.skip]
  nodup _ := by simp [Unused.skip]

theorem Good.andThen {v w : Visit} {U U' : Name → Prop} {W W' : Warning → Prop} (h : Good v U W) (h' : Good w U' W') (hd : ∀ x, W x → ¬ W' x) :
    Good (v.andThen w) (fun x => U x ∨ U' x) (fun x => W x ∨ W' x) where
  names vars := by show Unused.names (w (v vars).1).1 = _; rw [h'.names, h.names]
  flags vars i := by
    show flag (w (v vars).1).1 i = true ↔ _
    rw [h'.flags, h.flags, h.names]
    constructor
    · rintro ((h | ⟨x, h1, h2⟩) | ⟨x, h1, h2⟩)
      · exact .inl h
      · exact .inr ⟨x, .inl h1, h2⟩
      · exact .inr ⟨x, .inr h1, h2⟩
    · rintro (h | ⟨x, h1 | h1, h2⟩)
      · exact .inl (.inl h)
      · exact .inl (.inr ⟨x, h1, h2⟩)
      · exact .inr ⟨x, h1, h2⟩
  warns vars x := by
    show x ∈ (v vars).2 ++ (w (v vars).1).2 ↔ _
    rw [List.mem_append, h.warns, h'.warns]
  nodup vars := by
    show ((v vars).2 ++ (w (v vars).1).2).Nodup
    refine List.nodup_append.mpr ⟨h.nodup _, h'.nodup _, fun a ha b hb e => ?_⟩
    subst e
    exact hd _ ((h.warns _ _).mp ha) ((h'.warns _ _).mp hb)

theorem Good.within {v : Visit} {U : Name → Prop} {W : Warning → Prop} (h : Good v U W) (p : List Nat) :
    Good (v.within p) U (fun w => ∃ w', W w' ∧ w = w'.within p) where
  names vars := h.names vars
  flags vars i := h.flags vars i
  warns vars w := by
    show w ∈ (v vars).2.map (Warning.within p) ↔ _
    simp only [List.mem_map, h.warns]
    exact ⟨fun ⟨a, h1, h2⟩ => ⟨a, h1, h2.symm⟩, fun ⟨a, h1, h2⟩ => ⟨a, h1, h2.symm⟩⟩
  nodup vars := by
    show ((v vars).2.map (Warning.within p)).Nodup
    exact List.Pairwise.map _ (fun _ _ hne e => hne (within_inj e)) (h.nodup vars)

/-! ### Variables -/

theorem mark_names (x : Name) : (vars : Vars) → names (mark x vars) = names vars
  | [] => rfl
  | v :: vars => by
    simp only [mark]
    split
    · rfl
    · have := mark_names x vars
      simp only [names] at this ⊢
      simp [this]

theorem First.zero {x y : Name} {xs : List Name} : First (y :: xs) 0 x ↔ y = x := by simp [First]

theorem First.succ {x y : Name} {xs : List Name} {i : Nat} : First (y :: xs) (i + 1) x ↔ y ≠ x ∧ First xs i x := by
  simp only [First, List.getElem?_cons_succ]
  constructor
  · rintro ⟨h1, h2⟩
    refine ⟨fun e => h2 0 (by omega) (by simp [e]), h1, fun j hj => ?_⟩
    have := h2 (j + 1) (by omega)
    simpa using this
  · rintro ⟨h0, h1, h2⟩
    refine ⟨h1, fun j hj => ?_⟩
    cases j with
    | zero => simpa using h0
    | succ j => simpa using h2 j (by omega)

theorem mark_flags (x : Name) : (vars : Vars) → (i : Nat) → (flag (mark x vars) i = true ↔ flag vars i = true ∨ First (names vars) i x)
  | [], i => by simp [mark, flag, First, names]
  | v :: vars, i => by
    simp only [mark]
    split
    · rename_i h
      have h := namesEqual_iff'.mp h
      cases i with
      | zero => simp [flag, names, First.zero, h]
      | succ i =>
        have : First (names (v :: vars)) (i + 1) x ↔ v.1 ≠ x ∧ First (names vars) i x := First.succ
        rw [this]
        simp [flag, h]
    · rename_i h
      have h : v.1 ≠ x := fun e => h (namesEqual_iff'.mpr e.symm)
      cases i with
      | zero => simp [flag, names, First.zero, h]
      | succ i =>
        have : First (names (v :: vars)) (i + 1) x ↔ v.1 ≠ x ∧ First (names vars) i x := First.succ
        rw [this]
        have := mark_flags x vars i
        simp only [flag, List.getElem?_cons_succ] at this ⊢
        rw [this]
        simp [h]

theorem Good.var (x : Name) : Good (fun vars => (mark x vars, [])) (fun y => y = x) (fun _ => False) where
  names vars := mark_names x vars
  flags vars i := by simp [mark_flags]
  warns _ _ := by simp
  nodup _ := by simp

/-! ### Parts -/

/-- The visit is that of these parts, the first of which has number `k`. -/
def Parts (k : Nat) (es : List Expr) (v : Visit) : Prop :=
  Good v (fun x => ∃ c ∈ es, Uses x c) (fun w => ∃ (j : Nat) (c : Expr) (w' : Warning), es[j]? = some c ∧ Unused c w' ∧ w = w'.within [0, k + j])

theorem Parts.nil {k : Nat} : Parts k [] skip := Good.skip.congr (by simp) (by simp)

theorem Parts.cons {k : Nat} {e : Expr} {es : List Expr} {v w : Visit} (h : Good v (Uses · e) (Unused e)) (h' : Parts (k + 1) es w) :
    Parts k (e :: es) ((v.within [0, k]).andThen w) := by
  refine ((h.within [0, k]).andThen h' ?_).congr (by simp) ?_
  · rintro _ ⟨w1, _, rfl⟩ ⟨j, c, w2, _, _, h⟩
    have := congrArg Warning.place h
    simp at this
    omega
  · intro w
    constructor
    · rintro (⟨w', h1, rfl⟩ | ⟨j, c, w', h1, h2, rfl⟩)
      · exact ⟨0, e, w', rfl, h1, rfl⟩
      · exact ⟨j + 1, c, w', by simpa using h1, h2, by rw [Nat.add_right_comm]; rfl⟩
    · rintro ⟨j, c, w', h1, h2, rfl⟩
      cases j with
      | zero => simp at h1; subst h1; exact .inl ⟨w', h2, rfl⟩
      | succ j => exact .inr ⟨j, c, w', by simpa using h1, h2, by rw [Nat.add_right_comm]; rfl⟩

theorem Parts.append {k : Nat} {es fs : List Expr} {v w : Visit} (h : Parts k es v) (h' : Parts (k + es.length) fs w) :
    Parts k (es ++ fs) (v.andThen w) := by
  refine (Good.andThen h h' ?_).congr ?_ ?_
  · rintro _ ⟨i, c1, w1, h1, _, rfl⟩ ⟨j, c, w2, _, _, h⟩
    have := congrArg Warning.place h
    have := (List.getElem?_eq_some_iff.mp h1).1
    simp at *
    omega
  · intro x
    simp only [List.mem_append]
    constructor
    · rintro (⟨c, h1, h2⟩ | ⟨c, h1, h2⟩)
      · exact ⟨c, .inl h1, h2⟩
      · exact ⟨c, .inr h1, h2⟩
    · rintro ⟨c, h1 | h1, h2⟩
      · exact .inl ⟨c, h1, h2⟩
      · exact .inr ⟨c, h1, h2⟩
  · intro w
    constructor
    · rintro (⟨j, c, w', h1, h2, rfl⟩ | ⟨j, c, w', h1, h2, rfl⟩)
      · exact ⟨j, c, w', by rw [List.getElem?_append_left (List.getElem?_eq_some_iff.mp h1).1]; exact h1, h2, rfl⟩
      · exact ⟨es.length + j, c, w', by simpa [List.getElem?_append_right] using h1, h2, by rw [Nat.add_assoc]⟩
    · rintro ⟨j, c, w', h1, h2, rfl⟩
      by_cases hj : j < es.length
      · rw [List.getElem?_append_left hj] at h1
        exact .inl ⟨j, c, w', h1, h2, rfl⟩
      · rw [List.getElem?_append_right (by omega)] at h1
        exact .inr ⟨j - es.length, c, w', h1, h2, by congr 3; omega⟩

theorem Parts.one {k : Nat} {e : Expr} {v : Visit} (h : Good v (Uses · e) (Unused e)) : Parts k [e] (v.within [0, k]) := by
  refine (h.within [0, k]).congr (by simp) ?_
  intro w
  constructor
  · rintro ⟨w', h1, rfl⟩
    exact ⟨0, e, w', rfl, h1, rfl⟩
  · rintro ⟨j, c, w', h1, h2, rfl⟩
    cases j with
    | zero => simp at h1; subst h1; exact ⟨w', h2, rfl⟩
    | succ j => simp at h1

/-- Does the expression bind variables, or is it one? -/
def plain : Expr → Bool
  | .var _ => false
  | .letE _ _ => false
  | .func _ _ _ => false
  | .polyValue _ _ _ => false
  | _ => true

theorem At.unused {e : Expr} {p : List Nat} {c : Expr} {w : Warning} (hat : ∀ {q e'}, At c q e' → At e (p ++ q) e') (h : Unused c w) : Unused e (w.within p) := by
  cases w with
  | binding q i x =>
    obtain ⟨bs, b, d, h1, h2⟩ := h
    exact ⟨bs, b, d, hat h1, h2⟩
  | argument q x =>
    obtain ⟨t, b, h1, h2⟩ := h
    exact ⟨t, b, hat h1, h2⟩

theorem Parts.good {e : Expr} {v : Visit} (hp : plain e = true) (h : Parts 0 (parts e) v) : Good v (Uses · e) (Unused e) := by
  refine Good.congr h ?_ ?_
  · intro x
    constructor
    · rintro ⟨c, h1, h2⟩
      exact .part h1 h2
    · intro h
      cases h with
      | part h1 h2 => exact ⟨_, h1, h2⟩
      | _ => simp [plain] at hp
  · intro w
    constructor
    · rintro ⟨j, c, w', h1, h2, rfl⟩
      rw [Nat.zero_add]
      exact At.unused (fun h => .part h1 h) h2
    · intro h
      cases w with
      | binding q i x =>
        obtain ⟨bs, b, d, h1, h2⟩ := h
        cases h1 with
        | part h1 h3 => exact ⟨_, _, .binding _ i x, h1, ⟨bs, b, d, h3, h2⟩, by simp [Warning.within]⟩
        | _ => simp [plain] at hp
      | argument q x =>
        obtain ⟨t, b, h1, h2⟩ := h
        cases h1 with
        | part h1 h3 => exact ⟨_, _, .argument _ x, h1, ⟨t, b, h3, h2⟩, by simp [Warning.within]⟩
        | _ => simp [plain] at hp

/-! ### New variables -/

theorem First.append_left {xs ys : List Name} {i : Nat} {x : Name} (h : i < xs.length) : First (xs ++ ys) i x ↔ First xs i x := by
  simp only [First, List.getElem?_append_left h]
  refine and_congr_right fun _ => forall_congr' fun j => ?_
  constructor
  · intro g hj
    have := g hj
    rwa [List.getElem?_append_left (by omega)] at this
  · intro g hj
    rw [List.getElem?_append_left (by omega)]
    exact g hj

theorem First.append_right {xs ys : List Name} {i : Nat} {x : Name} : First (xs ++ ys) (xs.length + i) x ↔ x ∉ xs ∧ First ys i x := by
  simp only [First]
  rw [List.getElem?_append_right (by omega), Nat.add_sub_cancel_left]
  constructor
  · rintro ⟨h1, h2⟩
    refine ⟨fun hm => ?_, h1, fun j hj => ?_⟩
    · obtain ⟨j, hj, he⟩ := List.getElem_of_mem hm
      refine h2 j (by omega) ?_
      rw [List.getElem?_append_left hj, List.getElem?_eq_getElem hj, he]
    · have := h2 (xs.length + j) (by omega)
      rwa [List.getElem?_append_right (by omega), Nat.add_sub_cancel_left] at this
  · rintro ⟨h0, h1, h2⟩
    refine ⟨h1, fun j hj => ?_⟩
    by_cases hjl : j < xs.length
    · rw [List.getElem?_append_left hjl]
      exact fun e => h0 (List.mem_of_getElem? e)
    · rw [List.getElem?_append_right (by omega)]
      exact h2 _ (by omega)

theorem flag_append_left {xs ys : Vars} {i : Nat} (h : i < xs.length) : flag (xs ++ ys) i = flag xs i := by
  simp [flag, List.getElem?_append_left h]

theorem flag_append_right {xs ys : Vars} {i : Nat} : flag (xs ++ ys) (xs.length + i) = flag ys i := by
  simp [flag, List.getElem?_append_right]

theorem flag_drop {vars : Vars} {n i : Nat} : flag (vars.drop n) i = flag vars (n + i) := by
  simp [flag, List.getElem?_drop]

theorem names_append {xs ys : Vars} : names (xs ++ ys) = names xs ++ names ys := by simp [names]

theorem names_length {xs : Vars} : (names xs).length = xs.length := by simp [names]

/-- A visit with new variables in scope: what is outside. -/
theorem good_outside {v : Visit} {U : Name → Prop} {W : Warning → Prop} (h : Good v U W) (nv vars : Vars) :
    names ((v (nv ++ vars)).1.drop nv.length) = names vars ∧
    ∀ i, flag ((v (nv ++ vars)).1.drop nv.length) i = true ↔ flag vars i = true ∨ ∃ x, (U x ∧ x ∉ names nv) ∧ First (names vars) i x := by
  have hn := h.names (nv ++ vars)
  rw [names_append] at hn
  refine ⟨?_, fun i => ?_⟩
  · have : names ((v (nv ++ vars)).1.drop nv.length) = (names (v (nv ++ vars)).1).drop nv.length := by simp [names, List.map_drop]
    rw [this, hn, ← names_length, List.drop_left]
  · rw [flag_drop, h.flags, flag_append_right, names_append, ← names_length]
    simp only [First.append_right, and_assoc]

/-- A visit with new variables in scope: the new variables. -/
theorem good_inside {v : Visit} {U : Name → Prop} {W : Warning → Prop} (h : Good v U W) (nv vars : Vars) {i : Nat} (hi : i < nv.length) :
    flag (v (nv ++ vars)).1 i = true ↔ flag nv i = true ∨ ∃ x, U x ∧ First (names nv) i x := by
  rw [h.flags, flag_append_left hi, names_append]
  simp only [First.append_left (by rw [names_length]; exact hi : i < (names nv).length)]

theorem used_eq {varc : Nat} {vars : Vars} {v : Nat} : used varc vars v = flag vars (varc - 1 - v) := rfl

theorem poly_good {x : Name} {k : Kind} {b : Expr} (h : Good (expr b) (Uses · b) (Unused b)) : Good (expr (.polyValue x k b)) (Uses · (.polyValue x k b)) (Unused (.polyValue x k b)) := by
  have e : expr (.polyValue x k b) = fun vars => ((((expr b).within [1]) ((x, false) :: vars)).1.drop 1, (((expr b).within [1]) ((x, false) :: vars)).2) := by rw [expr]
  rw [e]
  have hw := h.within [1]
  refine Good.congr (U := fun y => Uses y b ∧ y ∉ names [(x, false)]) (W := fun w => ∃ w', Unused b w' ∧ w = w'.within [1]) ⟨?_, ?_, ?_, ?_⟩ ?_ ?_
  · exact fun vars => (good_outside hw [(x, false)] vars).1
  · exact fun vars => (good_outside hw [(x, false)] vars).2
  · exact fun vars => hw.warns _
  · exact fun vars => hw.nodup _
  · intro y
    simp only [names, List.map_cons, List.map_nil, List.mem_singleton]
    constructor
    · rintro ⟨h1, h2⟩
      exact .poly h1 h2
    · intro h
      cases h with
      | part h1 _ => simp [parts] at h1
      | poly h1 h2 => exact ⟨h1, h2⟩
  · intro w
    constructor
    · rintro ⟨w', h1, rfl⟩
      exact At.unused (fun h => .poly h) h1
    · intro h
      cases w with
      | binding q i y =>
        obtain ⟨bs, c, d, h1, h2⟩ := h
        cases h1 with
        | part h1 _ => simp [parts] at h1
        | poly h1 => exact ⟨.binding _ i y, ⟨bs, c, d, h1, h2⟩, rfl⟩
      | argument q y =>
        obtain ⟨t, c, h1, h2⟩ := h
        cases h1 with
        | part h1 _ => simp [parts] at h1
        | poly h1 => exact ⟨.argument _ y, ⟨t, c, h1, h2⟩, rfl⟩

theorem func_good {x : Name} {t b : Expr} (ht : Good (expr t) (Uses · t) (Unused t)) (h : Good (expr b) (Uses · b) (Unused b)) :
    Good (expr (.func x t b)) (Uses · (.func x t b)) (Unused (.func x t b)) := by
  have hw := h.within [1]
  have ht := ht.within [0, 0]
  have hflag : ∀ vars, used 1 ((expr b).within [1] ((x, underscore x) :: vars)).1 0 = true ↔ x.str.head? = some '_' ∨ Uses x b := by
    intro vars
    rw [used_eq]
    have := good_inside hw [(x, underscore x)] vars (i := 0) (by simp)
    rw [show ((x, underscore x) :: vars) = [(x, underscore x)] ++ vars from rfl, this]
    have e : ∀ y, First (names [(x, underscore x)]) 0 y ↔ x = y := fun y => First.zero
    simp only [e]
    simp [flag, underscore]
  have e : expr (.func x t b) = fun vars =>
      ((((expr b).within [1]) ((x, underscore x) :: ((expr t).within [0, 0] vars).1)).1.drop 1,
        ((expr t).within [0, 0] vars).2 ++ ((expr b).within [1] ((x, underscore x) :: ((expr t).within [0, 0] vars).1)).2 ++
          (if used 1 (((expr b).within [1]) ((x, underscore x) :: ((expr t).within [0, 0] vars).1)).1 0 then [] else [.argument [] x])) := by rw [expr]
  rw [e]
  refine Good.congr (U := fun y => Uses y t ∨ Uses y b ∧ y ∉ names [(x, underscore x)])
    (W := fun w => ((∃ w', Unused t w' ∧ w = w'.within [0, 0]) ∨ (∃ w', Unused b w' ∧ w = w'.within [1])) ∨ (¬ (x.str.head? = some '_' ∨ Uses x b) ∧ w = .argument [] x)) ⟨?_, ?_, ?_, ?_⟩ ?_ ?_
  · exact fun vars => ((good_outside hw [(x, underscore x)] _).1.trans (ht.names _))
  · intro vars i
    have := (good_outside hw [(x, underscore x)] ((expr t).within [0, 0] vars).1).2 i
    simp only [List.length_singleton, List.singleton_append] at this
    rw [this, ht.flags, ht.names]
    constructor
    · rintro ((h | ⟨x, h1, h2⟩) | ⟨x, h1, h2⟩)
      · exact .inl h
      · exact .inr ⟨x, .inl h1, h2⟩
      · exact .inr ⟨x, .inr h1, h2⟩
    · rintro (h | ⟨x, h1 | h1, h2⟩)
      · exact .inl (.inl h)
      · exact .inl (.inr ⟨x, h1, h2⟩)
      · exact .inr ⟨x, h1, h2⟩
  · intro vars w
    simp only [List.mem_append, ht.warns, hw.warns]
    have := hflag ((expr t).within [0, 0] vars).1
    refine or_congr Iff.rfl ?_
    rw [← this]
    split <;> simp [*]
  · intro vars
    refine List.nodup_append.mpr ⟨List.nodup_append.mpr ⟨ht.nodup _, hw.nodup _, ?_⟩, by split <;> simp, ?_⟩
    · intro w hw1 w2 hw2 e
      subst e
      obtain ⟨w1, _, rfl⟩ := (ht.warns _ _).mp hw1
      obtain ⟨w2, _, h⟩ := (hw.warns _ _).mp hw2
      have := congrArg Warning.place h
      simp at this
    · intro w hw1 w2 hw2 e
      subst e
      have hw2 : w = .argument [] x := by
        split at hw2
        · cases hw2
        · simpa using hw2
      subst hw2
      rcases List.mem_append.mp hw1 with h | h
      · obtain ⟨w1, _, h⟩ := (ht.warns _ _).mp h
        have := congrArg Warning.place h
        rw [place_within] at this
        cases this
      · obtain ⟨w1, _, h⟩ := (hw.warns _ _).mp h
        have := congrArg Warning.place h
        rw [place_within] at this
        cases this
  · intro y
    simp only [names, List.map_cons, List.map_nil, List.mem_singleton]
    constructor
    · rintro (h1 | ⟨h1, h2⟩)
      · exact .part (c := t) (by simp [parts]) h1
      · exact .func h1 h2
    · intro h
      cases h with
      | part h1 h2 => simp [parts] at h1; subst h1; exact .inl h2
      | func h1 h2 => exact .inr ⟨h1, h2⟩
  · intro w
    constructor
    · rintro ((⟨w', h1, rfl⟩ | ⟨w', h1, rfl⟩) | ⟨h1, rfl⟩)
      · exact At.unused (fun h => .part (k := 0) (c := t) rfl h) h1
      · exact At.unused (fun h => .func h) h1
      · exact ⟨t, b, .here, fun h => h1 (.inl h), fun h => h1 (.inr h)⟩
    · intro h
      cases w with
      | binding q i y =>
        obtain ⟨bs, c, d, h1, h2⟩ := h
        cases h1 with
        | @part _ k _ _ _ h1 h3 =>
          cases k with
          | zero => simp [parts] at h1; subst h1; exact .inl (.inl ⟨.binding _ i y, ⟨bs, c, d, h3, h2⟩, rfl⟩)
          | succ k => simp [parts] at h1
        | func h1 => exact .inl (.inr ⟨.binding _ i y, ⟨bs, c, d, h1, h2⟩, rfl⟩)
      | argument q y =>
        obtain ⟨t', c, h1, h2⟩ := h
        cases h1 with
        | here => exact .inr ⟨fun h => h.elim h2.1 h2.2, rfl⟩
        | @part _ k _ _ _ h1 h3 =>
          cases k with
          | zero => simp [parts] at h1; subst h1; exact .inl (.inl ⟨.argument _ y, ⟨t', c, h3, h2⟩, rfl⟩)
          | succ k => simp [parts] at h1
        | func h1 => exact .inl (.inr ⟨.argument _ y, ⟨t', c, h1, h2⟩, rfl⟩)

/-! ### Let -/

/-- The bindings processed by the loop, in order. -/
structure Worked (varc : Nat) (U : Nat → Name → Prop) (W : Nat → Warning → Prop) (processed : List Nat) (vars : Vars) (r : Vars × List Warning) (new : List Nat) : Prop where
  names : names r.1 = names vars
  nodup : new.Nodup
  fresh : ∀ j ∈ new, j < varc ∧ j ∉ processed
  flags : ∀ i, flag r.1 i = true ↔ flag vars i = true ∨ ∃ j ∈ new, ∃ x, U j x ∧ First (Unused.names vars) i x
  closed : ∀ j, j < varc → used varc r.1 j = true → j ∈ new ∨ j ∈ processed
  reach : ∀ S : Nat → Prop, (∀ j, j < varc → used varc vars j = true → S j) → (∀ j j' x, S j → j' < varc → U j x → First (Unused.names vars) (varc - 1 - j') x → S j') → ∀ j ∈ new, S j
  warns : ∀ w, w ∈ r.2 ↔ ∃ j ∈ new, W j w
  nodups : r.2.Nodup

theorem work_ok {varc : Nat} {visits : List Visit} {U : Nat → Name → Prop} {W : Nat → Warning → Prop}
    (hv : ∀ j, j < varc → ∃ v, visits[j]? = some v ∧ Good v (U j) (W j)) (hd : ∀ i j w, W i w → W j w → i = j) :
    (n : Nat) → (processed : List Nat) → (vars : Vars) → processed.Nodup → (∀ j ∈ processed, j < varc) → varc ≤ n + processed.length →
    ∃ new, Worked varc U W processed vars (work varc visits n processed vars) new
  | 0, processed, vars, hp, hl, hn => by
    refine ⟨[], rfl, by simp, by simp, by simp [work, skip], fun j hj _ => .inr ?_, by simp, by simp [work, skip], by simp [work, skip]⟩
    have h1 : (List.range varc).length ≤ processed.length := by simpa using hn
    have h2 : List.Subperm processed (List.range varc) := List.Nodup.subperm hp fun j hj => by simpa using hl j hj
    exact (h2.perm_of_length_le h1).mem_iff.mpr (by simpa using hj)
  | n + 1, processed, vars, hp, hl, hn => by
    simp only [work]
    cases hf : (List.range varc).find? (fun v => used varc vars v && !processed.contains v) with
    | none =>
      refine ⟨[], rfl, by simp, by simp, by simp, fun j hj hu => .inr ?_, by simp, by simp, by simp⟩
      have := List.find?_eq_none.mp hf j (by simpa using hj)
      simp only [hu, Bool.true_and] at this
      simpa using this
    | some v =>
      have h1 := List.find?_some hf
      have h2 : v < varc := by simpa using List.mem_of_find?_eq_some hf
      simp only [Bool.and_eq_true, Bool.not_eq_true', List.contains_eq_mem, decide_eq_false_iff_not] at h1
      obtain ⟨vis, h3, h4⟩ := hv v h2
      simp only [h3, Option.getD_some]
      obtain ⟨new, hw⟩ := work_ok hv hd n (v :: processed) (vis vars).1 (List.nodup_cons.mpr ⟨h1.2, hp⟩)
        (by simpa using ⟨h2, hl⟩) (by simp; omega)
      have hnn := h4.names vars
      refine ⟨v :: new, hw.names.trans hnn, List.nodup_cons.mpr ⟨fun h => (hw.fresh v h).2 (by simp), hw.nodup⟩, ?_, ?_, ?_, ?_, ?_, ?_⟩
      · intro j hj
        rcases List.mem_cons.mp hj with rfl | hj
        · exact ⟨h2, h1.2⟩
        · exact ⟨(hw.fresh j hj).1, fun h => (hw.fresh j hj).2 (by simp [h])⟩
      · intro i
        refine (hw.flags i).trans ?_
        rw [h4.flags, hnn]
        constructor
        · rintro ((h | ⟨x, h, h'⟩) | ⟨j, hj, h⟩)
          · exact .inl h
          · exact .inr ⟨v, by simp, x, h, h'⟩
          · exact .inr ⟨j, by simp [hj], h⟩
        · rintro (h | ⟨j, hj, h⟩)
          · exact .inl (.inl h)
          · rcases List.mem_cons.mp hj with rfl | hj
            · exact .inl (.inr h)
            · exact .inr ⟨j, hj, h⟩
      · intro j hj hu
        rcases hw.closed j hj hu with h | h
        · exact .inl (by simp [h])
        · rcases List.mem_cons.mp h with rfl | h
          · exact .inl (by simp)
          · exact .inr h
      · intro S hS hS' j hj
        have hv' := hS v h2 h1.1
        rcases List.mem_cons.mp hj with rfl | hj
        · exact hv'
        · refine hw.reach S ?_ (by rw [hnn]; exact hS') j hj
          intro j hj hu
          rw [used_eq, h4.flags] at hu
          rcases hu with hu | ⟨x, hx, hx'⟩
          · exact hS j hj hu
          · exact hS' v j x hv' hj hx hx'
      · intro w
        show w ∈ (vis vars).2 ++ _ ↔ _
        rw [List.mem_append, h4.warns, hw.warns]
        simp
      · show ((vis vars).2 ++ _).Nodup
        refine List.nodup_append.mpr ⟨h4.nodup _, hw.nodups, fun a ha b hb e => ?_⟩
        subst e
        obtain ⟨j, hj, hj'⟩ := (hw.warns _).mp hb
        have := hd _ _ _ ((h4.warns _ _).mp ha) hj'
        exact (hw.fresh j hj).2 (by simp [this])

theorem bindNames_eq : (bs : Binds) → bindNames bs = bs.toList.map (·.name)
  | .nil => rfl
  | .kind _ _ _ rest => by simp [bindNames, Binds.toList, bindNames_eq rest]
  | .type _ _ _ rest => by simp [bindNames, Binds.toList, bindNames_eq rest]

theorem names_letVars (xs : List Name) : names (letVars xs) = xs.reverse := by
  simp [names, letVars, List.map_reverse, Function.comp_def]

theorem bound_iff {bs : List Binding} {j : Nat} {x : Name} (hj : j < bs.length) : First (bs.map (·.name)).reverse (bs.length - 1 - j) x ↔ Bound bs j x := by
  simp only [First, Bound]
  rw [List.getElem?_reverse (by simp; omega)]
  simp only [List.length_map, show bs.length - 1 - (bs.length - 1 - j) = j by omega]
  refine and_congr (by simp) ?_
  constructor
  · intro h k b hk hb e
    have hkl := (List.getElem?_eq_some_iff.mp hb).1
    refine h (bs.length - 1 - k) (by omega) ?_
    rw [List.getElem?_reverse (by simp; omega)]
    simp [show bs.length - 1 - (bs.length - 1 - k) = k by omega, hb, e]
  · intro h k hk e
    rw [List.getElem?_reverse (by simp; omega)] at e
    simp only [List.length_map, List.getElem?_map, Option.map_eq_some_iff] at e
    obtain ⟨b, hb, e⟩ := e
    exact h (bs.length - 1 - k) b (by omega) hb e

theorem mem_unusedBindings {varc : Nat} {xs : List Name} {vars : Vars} {w : Warning} :
    w ∈ unusedBindings varc xs vars ↔ ∃ i x, i < varc ∧ xs[i]? = some x ∧ used varc vars i = false ∧ w = .binding [] i x := by
  simp only [unusedBindings, List.mem_filterMap, List.mem_range]
  constructor
  · rintro ⟨i, hi, h⟩
    split at h
    · cases h
    · rename_i hu
      simp only [Option.map_eq_some_iff] at h
      obtain ⟨x, h1, h2⟩ := h
      exact ⟨i, x, hi, h1, by simpa using hu, h2.symm⟩
  · rintro ⟨i, x, hi, h1, h2, rfl⟩
    exact ⟨i, hi, by simp [h1, h2]⟩

theorem nodup_unusedBindings {varc : Nat} {xs : List Name} {vars : Vars} : (unusedBindings varc xs vars).Nodup := by
  unfold unusedBindings
  rw [List.Nodup, List.pairwise_filterMap]
  refine List.Pairwise.imp ?_ List.nodup_range
  intro a b hne x hx y hy e
  subst e
  split at hx
  · cases hx
  · split at hy
    · cases hy
    · simp only [Option.map_eq_some_iff] at hx hy
      obtain ⟨_, _, rfl⟩ := hx
      obtain ⟨_, _, h⟩ := hy
      cases h
      exact hne rfl

/-- The warnings of binding `j`. -/
def bindingWarns (bs : List Binding) (j : Nat) (w : Warning) : Prop := ∃ d w', bs[j]? = some d ∧ Unused d.expr w' ∧ w = w'.within [2, j]

def bindingUses (bs : List Binding) (j : Nat) (x : Name) : Prop := ∃ d, bs[j]? = some d ∧ Uses x d.expr

theorem bindingUsed_ind {bs : List Binding} {b : Expr} {S : Nat → Prop} (h1 : ∀ i d, bs[i]? = some d → d.name.str.head? = some '_' → S i)
    (h2 : ∀ i x, Uses x b → Bound bs i x → S i) (h3 : ∀ i x j d, S j → bs[j]? = some d → Uses x d.expr → Bound bs i x → S i) {i : Nat} (h : BindingUsed bs b i) : S i :=
  match h with
  | .underscore g1 g2 => h1 _ _ g1 g2
  | .body g1 g2 => h2 _ _ g1 g2
  | .binding g0 g1 g2 g3 => h3 _ _ _ _ (bindingUsed_ind h1 h2 h3 g0) g1 g2 g3
  termination_by structural h

theorem BindingUsed.lt {bs : List Binding} {b : Expr} {j : Nat} (h : BindingUsed bs b j) : j < bs.length := by
  cases h with
  | underscore h _ => exact (List.getElem?_eq_some_iff.mp h).1
  | body _ h => obtain ⟨⟨_, h, _⟩, _⟩ := h; exact (List.getElem?_eq_some_iff.mp h).1
  | binding _ _ _ h => obtain ⟨⟨_, h, _⟩, _⟩ := h; exact (List.getElem?_eq_some_iff.mp h).1

theorem Bound.lt {bs : List Binding} {j : Nat} {x : Name} (h : Bound bs j x) : j < bs.length := by
  obtain ⟨⟨_, h, _⟩, _⟩ := h; exact (List.getElem?_eq_some_iff.mp h).1

theorem let_good {bs : Binds} {b : Expr} (ht : Parts 0 (givenTypes bs) (types 0 bs)) (h : Good (expr b) (Uses · b) (Unused b))
    (hv : ∀ (j : Nat), j < bs.toList.length → ∃ v, (exprsOf 0 bs)[j]? = some v ∧ Good v (bindingUses bs.toList j) (bindingWarns bs.toList j)) :
    Good (expr (.letE bs b)) (Uses · (.letE bs b)) (Unused (.letE bs b)) := by
  have hw := h.within [1]
  have hxs := bindNames_eq bs
  have hlen : (bindNames bs).length = bs.toList.length := by simp [hxs]
  have hnv : names (letVars (bindNames bs)) = (bs.toList.map (·.name)).reverse := by rw [names_letVars, hxs]
  have hnvl : (letVars (bindNames bs)).length = bs.toList.length := by rw [← names_length, hnv]; simp
  have hfirst : ∀ {j x}, j < bs.toList.length → (First (names (letVars (bindNames bs))) (bs.toList.length - 1 - j) x ↔ Bound bs.toList j x) :=
    fun hj => by rw [hnv]; exact bound_iff hj
  -- what is done after the types
  let run : Vars → Vars × List Warning := fun vars => (((expr b).within [1]).andThen (work (bindNames bs).length (exprsOf 0 bs) (bindNames bs).length [])) (letVars (bindNames bs) ++ vars)
  have key : ∀ vars, names ((run vars).1.drop (bindNames bs).length) = names vars ∧
      (∀ i, flag ((run vars).1.drop (bindNames bs).length) i = true ↔ flag vars i = true ∨
        ∃ x, ((Uses x b ∨ ∃ j, BindingUsed bs.toList b j ∧ bindingUses bs.toList j x) ∧ ∀ d ∈ bs.toList, d.name ≠ x) ∧ First (names vars) i x) ∧
      (∀ j, j < bs.toList.length → (used (bindNames bs).length (run vars).1 j = true ↔ BindingUsed bs.toList b j)) ∧
      (∀ w, w ∈ (run vars).2 ↔ (∃ w', Unused b w' ∧ w = w'.within [1]) ∨ ∃ j, BindingUsed bs.toList b j ∧ bindingWarns bs.toList j w) ∧
      (run vars).2.Nodup := by
    intro vars
    have hd : ∀ i j w, bindingWarns bs.toList i w → bindingWarns bs.toList j w → i = j := by
      rintro i j w ⟨d, w1, _, _, h1⟩ ⟨d', w2, _, _, h2⟩
      have := congrArg Warning.place (h1.symm.trans h2)
      simp at this
      exact this.1
    obtain ⟨new, hn⟩ := work_ok hv hd (bindNames bs).length [] (((expr b).within [1]) (letVars (bindNames bs) ++ vars)).1 (by simp) (by simp) (by simp [hlen])
    rw [hlen] at hn
    -- the variables after the body
    have hnames := hw.names (letVars (bindNames bs) ++ vars)
    have hused1 : ∀ j, j < bs.toList.length → (used bs.toList.length (((expr b).within [1]) (letVars (bindNames bs) ++ vars)).1 j = true ↔
        (∃ d, bs.toList[j]? = some d ∧ d.name.str.head? = some '_') ∨ ∃ x, Uses x b ∧ Bound bs.toList j x) := by
      intro j hj
      rw [used_eq, good_inside hw _ _ (by rw [hnvl]; omega)]
      refine or_congr ?_ (exists_congr fun x => and_congr_right fun _ => hfirst hj)
      rw [hxs]
      have : flag (letVars (bs.toList.map (·.name))) (bs.toList.length - 1 - j) = ((bs.toList[j]?).map fun d => underscore d.name).getD false := by
        simp only [flag, letVars]
        rw [List.getElem?_reverse (by simp; omega)]
        simp [show bs.toList.length - 1 - (bs.toList.length - 1 - j) = j by omega, Function.comp_def]
      rw [this]
      rw [List.getElem?_eq_getElem hj]
      simp [underscore]
    have hin : ∀ j x, j < bs.toList.length → (First (names (((expr b).within [1]) (letVars (bindNames bs) ++ vars)).1) (bs.toList.length - 1 - j) x ↔ Bound bs.toList j x) := by
      intro j x hj
      rw [hnames, names_append, First.append_left (by rw [names_length, hnvl]; omega)]
      exact hfirst hj
    have hreach : ∀ j ∈ new, BindingUsed bs.toList b j := by
      refine hn.reach _ ?_ ?_
      · intro j hj hu
        rcases (hused1 j hj).mp hu with ⟨d, h1, h2⟩ | ⟨x, h1, h2⟩
        · exact .underscore h1 h2
        · exact .body h1 h2
      · rintro j j' x hS hj' ⟨d, h1, h2⟩ h3
        exact .binding hS h1 h2 ((hin _ _ hj').mp h3)
    have hclosed : ∀ j, BindingUsed bs.toList b j → j ∈ new := by
      have hmem : ∀ j, j < bs.toList.length → (used bs.toList.length (((expr b).within [1]) (letVars (bindNames bs) ++ vars)).1 j = true ∨
          ∃ j' ∈ new, ∃ x, bindingUses bs.toList j' x ∧ Bound bs.toList j x) → j ∈ new := by
        intro j hj h
        rcases hn.closed j hj (by
          rw [used_eq, hn.flags]
          rcases h with h | ⟨j', h1, x, h2, h3⟩
          · exact .inl h
          · exact .inr ⟨j', h1, x, h2, (hin _ _ hj).mpr h3⟩) with h | h
        · exact h
        · cases h
      intro j h
      refine bindingUsed_ind (S := fun j => j ∈ new) ?_ ?_ ?_ h
      · intro i d g1 g2
        have hi := (List.getElem?_eq_some_iff.mp g1).1
        exact hmem i hi (.inl ((hused1 i hi).mpr (.inl ⟨d, g1, g2⟩)))
      · intro i x g1 g2
        exact hmem i g2.lt (.inl ((hused1 i g2.lt).mpr (.inr ⟨x, g1, g2⟩)))
      · intro i x j d g0 g1 g2 g3
        exact hmem i g3.lt (.inr ⟨j, g0, x, ⟨d, g1, g2⟩, g3⟩)
    have hnew : ∀ j, j ∈ new ↔ BindingUsed bs.toList b j := fun j => ⟨hreach j, hclosed j⟩
    have hr : run vars = ((work (bindNames bs).length (exprsOf 0 bs) (bindNames bs).length [] (((expr b).within [1]) (letVars (bindNames bs) ++ vars)).1).1,
      (((expr b).within [1]) (letVars (bindNames bs) ++ vars)).2 ++ (work (bindNames bs).length (exprsOf 0 bs) (bindNames bs).length [] (((expr b).within [1]) (letVars (bindNames bs) ++ vars)).1).2) := rfl
    rw [hr]
    rw [← hlen] at hn
    generalize work (bindNames bs).length (exprsOf 0 bs) (bindNames bs).length [] (((expr b).within [1]) (letVars (bindNames bs) ++ vars)).1 = r at hn
    have hnm := hn.names.trans (hnames.trans names_append)
    have hmn : ∀ x, x ∉ names (letVars (bindNames bs)) ↔ ∀ d ∈ bs.toList, d.name ≠ x := by
      intro x
      rw [hnv]
      simp
    refine ⟨?_, ?_, ?_, ?_, ?_⟩
    · have : names (r.1.drop (bindNames bs).length) = (names r.1).drop (bindNames bs).length := by simp [names, List.map_drop]
      show names (r.1.drop (bindNames bs).length) = _
      rw [this, hnm, hlen, ← hnvl, ← names_length, List.drop_left]
    · intro i
      show flag (r.1.drop (bindNames bs).length) i = true ↔ _
      rw [flag_drop, hn.flags, hw.flags, hnames, names_append, hlen, ← hnvl, flag_append_right, ← names_length]
      simp only [First.append_right, hmn, hnew]
      constructor
      · rintro ((h | ⟨x, h1, h2, h3⟩) | ⟨j, h0, x, h1, h2, h3⟩)
        · exact .inl h
        · exact .inr ⟨x, ⟨.inl h1, h2⟩, h3⟩
        · exact .inr ⟨x, ⟨.inr ⟨j, h0, h1⟩, h2⟩, h3⟩
      · rintro (h | ⟨x, ⟨h1 | ⟨j, h0, h1⟩, h2⟩, h3⟩)
        · exact .inl (.inl h)
        · exact .inl (.inr ⟨x, h1, h2, h3⟩)
        · exact .inr ⟨j, h0, x, h1, h2, h3⟩
    · intro j hj
      show used (bindNames bs).length r.1 j = true ↔ _
      rw [← hnew]
      constructor
      · intro hu
        rcases hn.closed j (by rw [hlen]; exact hj) hu with h | h
        · exact h
        · cases h
      · intro hm
        rw [used_eq, hn.flags, hlen]
        have hB := hreach j hm
        cases hB with
        | underscore g1 g2 => exact .inl ((hused1 j hj).mpr (.inl ⟨_, g1, g2⟩))
        | body g1 g2 => exact .inl ((hused1 j hj).mpr (.inr ⟨_, g1, g2⟩))
        | binding g0 g1 g2 g3 => exact .inr ⟨_, hclosed _ g0, _, ⟨_, g1, g2⟩, (hin _ _ hj).mpr g3⟩
    · intro w
      show w ∈ _ ++ r.2 ↔ _
      rw [List.mem_append, hw.warns, hn.warns]
      simp only [hnew]
    · show (_ ++ r.2).Nodup
      refine List.nodup_append.mpr ⟨hw.nodup _, hn.nodups, fun a ha c hc e => ?_⟩
      subst e
      obtain ⟨w1, _, h1⟩ := (hw.warns _ _).mp ha
      obtain ⟨j, _, d, w2, _, _, h2⟩ := (hn.warns _).mp hc
      have := congrArg Warning.place (h1.symm.trans h2)
      simp at this
  have e : expr (.letE bs b) = fun vars => ((run (types 0 bs vars).1).1.drop (bindNames bs).length,
      (types 0 bs vars).2 ++ (run (types 0 bs vars).1).2 ++ unusedBindings (bindNames bs).length (bindNames bs) (run (types 0 bs vars).1).1) := by rw [expr]
  rw [e]
  have hbw : ∀ vars w, w ∈ unusedBindings (bindNames bs).length (bindNames bs) (run vars).1 ↔ ∃ i d, bs.toList[i]? = some d ∧ ¬ BindingUsed bs.toList b i ∧ w = .binding [] i d.name := by
    intro vars w
    obtain ⟨_, _, k3, _⟩ := key vars
    rw [mem_unusedBindings]
    constructor
    · rintro ⟨i, x, h1, h2, h3, rfl⟩
      rw [hxs] at h2
      simp only [List.getElem?_map, Option.map_eq_some_iff] at h2
      obtain ⟨d, h2, rfl⟩ := h2
      refine ⟨i, d, h2, fun h => ?_, rfl⟩
      rw [(k3 i h.lt).mpr h] at h3
      cases h3
    · rintro ⟨i, d, h1, h2, rfl⟩
      have hi := (List.getElem?_eq_some_iff.mp h1).1
      refine ⟨i, d.name, by rw [hlen]; exact hi, by simp [hxs, h1], ?_, rfl⟩
      rw [← Bool.not_eq_true, k3 i hi]
      exact h2
  refine Good.congr (U := fun x => (∃ c ∈ givenTypes bs, Uses x c) ∨ ((Uses x b ∨ ∃ j, BindingUsed bs.toList b j ∧ bindingUses bs.toList j x) ∧ ∀ d ∈ bs.toList, d.name ≠ x))
    (W := fun w => ((∃ (j : Nat) (c : Expr) (w' : Warning), (givenTypes bs)[j]? = some c ∧ Unused c w' ∧ w = w'.within [0, 0 + j]) ∨
      ((∃ w', Unused b w' ∧ w = w'.within [1]) ∨ ∃ j, BindingUsed bs.toList b j ∧ bindingWarns bs.toList j w)) ∨
      ∃ i d, bs.toList[i]? = some d ∧ ¬ BindingUsed bs.toList b i ∧ w = .binding [] i d.name) ⟨?_, ?_, ?_, ?_⟩ ?_ ?_
  · intro vars
    exact (key _).1.trans (Good.names ht vars)
  · intro vars i
    refine ((key _).2.1 i).trans ?_
    rw [Good.flags ht, Good.names ht]
    constructor
    · rintro ((h | ⟨x, h1, h2⟩) | ⟨x, h1, h2⟩)
      · exact .inl h
      · exact .inr ⟨x, .inl h1, h2⟩
      · exact .inr ⟨x, .inr h1, h2⟩
    · rintro (h | ⟨x, h1 | h1, h2⟩)
      · exact .inl (.inl h)
      · exact .inl (.inr ⟨x, h1, h2⟩)
      · exact .inr ⟨x, h1, h2⟩
  · intro vars w
    simp only [List.mem_append]
    rw [Good.warns ht, (key _).2.2.2.1 w, hbw]
  · intro vars
    obtain ⟨_, _, _, k4, k5⟩ := key (types 0 bs vars).1
    refine List.nodup_append.mpr ⟨List.nodup_append.mpr ⟨Good.nodup ht _, k5, ?_⟩, nodup_unusedBindings, ?_⟩
    · intro w hw1 w2 hw2 e
      subst e
      obtain ⟨j, c, w1, _, _, h1⟩ := (Good.warns ht _ _).mp hw1
      rcases (k4 w).mp hw2 with ⟨w2, _, h2⟩ | ⟨j, _, d, w2, _, _, h2⟩
      · have := congrArg Warning.place (h1.symm.trans h2)
        simp at this
      · have := congrArg Warning.place (h1.symm.trans h2)
        simp at this
    · intro w hw1 w2 hw2 e
      subst e
      obtain ⟨i, d, _, _, rfl⟩ := (hbw _ _).mp hw2
      rcases List.mem_append.mp hw1 with h | h
      · obtain ⟨j, c, w1, _, _, h1⟩ := (Good.warns ht _ _).mp h
        have := congrArg Warning.place h1
        rw [place_within] at this
        cases this
      · rcases (k4 _).mp h with ⟨w2, _, h2⟩ | ⟨j, _, d, w2, _, _, h2⟩
        · have := congrArg Warning.place h2
          rw [place_within] at this
          cases this
        · have := congrArg Warning.place h2
          rw [place_within] at this
          cases this
  · intro x
    constructor
    · rintro (⟨c, h1, h2⟩ | ⟨h1 | ⟨j, h1, d, h3, h4⟩, h2⟩)
      · exact .part (e := .letE bs b) h1 h2
      · exact .body h1 h2
      · exact .binding h1 h3 h4 h2
    · intro h
      cases h with
      | part h1 h2 => exact .inl ⟨_, h1, h2⟩
      | body h1 h2 => exact .inr ⟨.inl h1, h2⟩
      | binding h1 h2 h3 h4 => exact .inr ⟨.inr ⟨_, h1, _, h2, h3⟩, h4⟩
  · intro w
    constructor
    · rintro ((⟨j, c, w', h1, h2, rfl⟩ | ⟨w', h1, rfl⟩ | ⟨j, h0, d, w', h1, h2, rfl⟩) | ⟨i, d, h1, h2, rfl⟩)
      · rw [Nat.zero_add]
        exact At.unused (fun h => .part (e := .letE bs b) h1 h) h2
      · exact At.unused (fun h => .body h) h1
      · exact At.unused (fun h => .binding h0 h1 h) h2
      · exact ⟨bs, b, d, .here, h1, rfl, h2⟩
    · intro h
      cases w with
      | binding q i y =>
        obtain ⟨bs', c, d, h1, h2⟩ := h
        cases h1 with
        | here => exact .inr ⟨i, d, h2.1, h2.2.2, by rw [h2.2.1]⟩
        | @part _ k _ _ _ h1 h3 => exact .inl (.inl ⟨k, _, .binding _ i y, h1, ⟨bs', c, d, h3, h2⟩, by simp [Warning.within]⟩)
        | body h1 => exact .inl (.inr (.inl ⟨.binding _ i y, ⟨bs', c, d, h1, h2⟩, rfl⟩))
        | binding h1 h3 h4 => exact .inl (.inr (.inr ⟨_, h1, _, .binding _ i y, h3, ⟨bs', c, d, h4, h2⟩, rfl⟩))
      | argument q y =>
        obtain ⟨t', c, h1, h2⟩ := h
        cases h1 with
        | @part _ k _ _ _ h1 h3 => exact .inl (.inl ⟨k, _, .argument _ y, h1, ⟨t', c, h3, h2⟩, by simp [Warning.within]⟩)
        | body h1 => exact .inl (.inr (.inl ⟨.argument _ y, ⟨t', c, h1, h2⟩, rfl⟩))
        | binding h1 h3 h4 => exact .inl (.inr (.inr ⟨_, h1, _, .argument _ y, h3, ⟨t', c, h4, h2⟩, rfl⟩))

/-! ### All expressions -/

mutual
theorem expr_good : (e : Expr) → Good (expr e) (Uses · e) (Unused e)
  | .dataType dt fields => Parts.good rfl (by rw [expr]; exact tagged_good 0 fields)
  | .funcType a r => Parts.good rfl (by rw [expr]; exact Parts.cons (expr_good a) (Parts.one (expr_good r)))
  | .packageType _ => Parts.good rfl (by rw [expr]; exact Parts.nil)
  | .typeOf e => Parts.good rfl (by rw [expr]; exact Parts.one (expr_good e))
  | .var x => by
    have e : expr (.var x) = fun vars => (mark x vars, []) := by rw [expr]
    rw [e]
    refine (Good.var x).congr ?_ ?_
    · intro y
      constructor
      · rintro rfl; exact .var
      · intro h
        cases h with
        | var => rfl
        | part h1 _ => simp [parts] at h1
    · intro w
      refine ⟨False.elim, fun h => ?_⟩
      cases w with
      | binding q i y =>
        obtain ⟨_, _, _, h1, _⟩ := h
        cases h1 with
        | part h1 _ => simp [parts] at h1
      | argument q y =>
        obtain ⟨_, _, h1, _⟩ := h
        cases h1 with
        | part h1 _ => simp [parts] at h1
  | .letE bs b => let_good (types_good 0 bs) (expr_good b) fun j hj => by
      obtain ⟨v, h1, h2⟩ := exprsOf_good 0 bs j _ (List.getElem?_eq_getElem hj)
      refine ⟨v, h1, h2.congr ?_ ?_⟩
      · intro x
        simp [bindingUses, List.getElem?_eq_getElem hj]
      · intro w
        simp [bindingWarns, List.getElem?_eq_getElem hj]
  | .structImplicit args => Parts.good rfl (by rw [expr]; exact tagged_good 0 args)
  | .structCopy src args => Parts.good rfl (by rw [expr]; exact Parts.cons (expr_good src) (tagged_good 1 args))
  | .unionValue t _ a => Parts.good rfl (by rw [expr]; exact Parts.cons (expr_good t) (Parts.one (expr_good a)))
  | .select c cs d => Parts.good rfl (by
      rw [expr]
      have h1 := Parts.cons (k := 0) (expr_good c) (tagged_good 1 cs)
      have h2 := h1.append (fs := d.toOption.toList) (w := defaultE (cs.toList.length + 1) d) (by
        have := default_good (cs.toList.length + 1) d
        simpa using this)
      simpa [parts] using h2)
  | .func x t b => func_good (expr_good t) (expr_good b)
  | .polyValue x k b => poly_good (expr_good b)
  | .polyApply p a => Parts.good rfl (by rw [expr]; exact Parts.cons (expr_good p) (Parts.one (expr_good a)))
  | .list f args => Parts.good rfl (by rw [expr]; exact Parts.cons (expr_good f) (exprs_good 1 args))
  | .literal f _ => Parts.good rfl (by rw [expr]; exact Parts.one (expr_good f))
  | .abstractCast p t v => Parts.good rfl (by
      rw [expr]
      exact (Parts.cons (k := 0) (expr_good p) (Parts.one (k := 1) (expr_good t))).append (Parts.one (expr_good v)))
  | .abstractAccess v => Parts.good rfl (by rw [expr]; exact Parts.one (expr_good v))
  | .modulePath _ => Parts.good rfl (by rw [expr]; exact Parts.nil)
  | .dataAccess o _ => Parts.good rfl (by rw [expr]; exact Parts.one (expr_good o))
  | .apply m args _ => Parts.good rfl (by rw [expr]; exact Parts.cons (expr_good m) (exprs_good 1 args))
theorem exprs_good (k : Nat) : (es : Exprs) → Parts k es.toList (exprs k es)
  | .nil => by rw [exprs]; exact Parts.nil
  | .cons e es => by rw [exprs]; exact Parts.cons (expr_good e) (exprs_good (k + 1) es)
theorem tagged_good (k : Nat) : (es : Tagged) → Parts k (es.toList.map (·.2)) (tagged k es)
  | .nil => by rw [tagged]; exact Parts.nil
  | .cons _ e es => by rw [tagged]; exact Parts.cons (expr_good e) (tagged_good (k + 1) es)
theorem default_good (k : Nat) : (d : Default) → Parts k d.toOption.toList (defaultE k d)
  | .none => by rw [defaultE]; exact Parts.nil
  | .some e => by rw [defaultE]; exact Parts.one (expr_good e)
theorem types_good (k : Nat) : (bs : Binds) → Parts k (givenTypes bs) (types k bs)
  | .nil => by rw [types]; exact Parts.nil
  | .kind _ _ _ rest => by rw [types]; exact types_good k rest
  | .type t _ _ rest => by rw [types]; exact Parts.cons (expr_good t) (types_good (k + 1) rest)
theorem exprsOf_good (i : Nat) : (bs : Binds) → (j : Nat) → (d : Binding) → bs.toList[j]? = some d →
    ∃ v, (exprsOf i bs)[j]? = some v ∧ Good v (Uses · d.expr) (fun w => ∃ w', Unused d.expr w' ∧ w = w'.within [2, i + j])
  | .nil, _, _, h => by simp [Binds.toList] at h
  | .kind _ _ e rest, 0, d, h => by
    simp [Binds.toList] at h
    subst h
    rw [exprsOf]
    exact ⟨_, rfl, (expr_good e).within _⟩
  | .type _ _ e rest, 0, d, h => by
    simp [Binds.toList] at h
    subst h
    rw [exprsOf]
    exact ⟨_, rfl, (expr_good e).within _⟩
  | .kind _ _ e rest, j + 1, d, h => by
    obtain ⟨v, h1, h2⟩ := exprsOf_good (i + 1) rest j d (by simpa [Binds.toList] using h)
    rw [exprsOf]
    refine ⟨v, by simpa using h1, ?_⟩
    rwa [show i + (j + 1) = i + 1 + j by omega]
  | .type _ _ e rest, j + 1, d, h => by
    obtain ⟨v, h1, h2⟩ := exprsOf_good (i + 1) rest j d (by simpa [Binds.toList] using h)
    rw [exprsOf]
    refine ⟨v, by simpa using h1, ?_⟩
    rwa [show i + (j + 1) = i + 1 + j by omega]
end

/-- C21. A warning is printed exactly for the bindings of a let that are not used and for the
arguments of functions that are not used, unless their names begin with an underscore. -/
theorem C21_exact (e : Expr) (w : Warning) : w ∈ warnings e ↔ Unused e w := (expr_good e).warns [] w

/-- C21. No warning is printed twice. -/
theorem C21_once (e : Expr) : (warnings e).Nodup := (expr_good e).nodup []

/-- `(U@ a, U@ _b) { U@ x = y; U@ y = x; U@ z = a; z; }`: nothing needs `x` and `y`, which use only each other. -/
def example1 : Expr :=
  let u : Expr := .dataType .struct .nil
  let n (s : String) : Name := ⟨s.toList, false⟩
  .func (n "a") u (.func (n "_b") u (.letE (.type u (n "x") (.var (n "y")) (.type u (n "y") (.var (n "x")) (.type u (n "z") (.var (n "a")) .nil))) (.var (n "z"))))

example : warnings example1 = [.binding [1, 1] 0 ⟨['x'], false⟩, .binding [1, 1] 1 ⟨['y'], false⟩] := by decide +kernel

/-- An argument needed only by an unused binding is not used. -/
example : warnings (.func ⟨['a'], false⟩ (.dataType .struct .nil) (.letE (.type (.dataType .struct .nil) ⟨['x'], false⟩ (.var ⟨['a'], false⟩) .nil) (.modulePath []))) =
    [.binding [1] 0 ⟨['x'], false⟩, .argument [] ⟨['a'], false⟩] := by decide +kernel

end Verif.Unused
