import Verif.Types.Complete
/-!
# Equality of types: the properties

`Mono h [] S` says that `S` is a set of types, closed under the parts of types, that are not
polymorphic and in which every cycle goes through a proper type.  `SameType` is equality of the
infinite trees that types stand for; see `Verif.Types.Spec`.
-/
namespace Verif.Types

/-! ### C23 -/

/-- For all types that are not polymorphic, cyclic or not, the comparison ends, does not fail, and
accepts exactly the types that unfold to the same tree. -/
theorem C23_decides {h : Heap} {S : Ptr → Prop} (hm : Mono h [] S) {a b : Ptr} (ha : S a) (hb : S b) :
    ∃ N, ∀ n ≥ N, ∃ r, fbleTypesEqual n h a b = .ok r ∧ (r = true ↔ SameType h [] a b) :=
  typesEqual_correct hm ha hb

/-- Whenever the comparison has given an answer, the answer is right. -/
theorem C23_sound {h : Heap} {S : Ptr → Prop} (hm : Mono h [] S) {a b : Ptr} (ha : S a) (hb : S b) {n : Nat}
    (he : fbleTypesEqual n h a b = .ok true) : SameType h [] a b := by
  rw [fbleTypesEqual, R.bind_eq_ok] at he
  obtain ⟨⟨h', v, r⟩, h1, h2⟩ := he
  cases h2
  rw [sameType_iff]
  intro k
  obtain ⟨_, _, _, hk⟩ := typesEqual_keeps (T := S) hm.mono0 hm.mono0 (fun _ ht => ht) n [] [] a b ha hb (by simp [assigned]) h' v true h1
  have hv : v = [] := by simpa using hk
  subst hv
  refine (typesEqual_sound hm.mono0 hm.mono0 (fun _ ht => ht) n [] [] a b h' [] ha hb (by simp [assigned]) h1 [] hm (Extends.refl _) k ?_).le (by omega)
  intro x y hxy; cases hxy

theorem At.unique {h : Heap} {σ : Vars} {ρ a path l l'} (h1 : At h σ ρ a path l) (h2 : At h σ ρ a path l') : l = l' := by
  induction h1 with
  | root hi hn =>
    cases h2 with
    | root hi' hn' =>
      cases hi.unique hi'
      rw [hn] at hn'; cases hn'; rfl
  | child hi hn hc _ ih =>
    cases h2 with
    | child hi' hn' hc' h2 =>
      cases hi.unique hi'
      rw [hn] at hn'; cases hn'
      rw [hc] at hc'; cases hc'
      exact ih h2

/-- A heap for the program
`F@ = <@ T@> <@ U@> (U@) { T@; };  F@<F@<X@>>;  <@ V@> (V@) { <@ W@> (V@) { X@; }; };  <@ V@> (V@) { <@ W@> (W@) { X@; }; }`. -/
def polyHeap : Heap := [
  .data .struct [], .var (.basic 0) none, .var (.basic 0) none, .func 2 1, .poly 2 3, .poly 1 4, .polyApply 5 0, .polyApply 5 6,
  .var (.basic 0) none, .var (.basic 0) none, .func 8 0, .poly 9 10, .func 8 11, .poly 8 12,
  .var (.basic 0) none, .var (.basic 0) none, .func 15 0, .poly 15 16, .func 14 17, .poly 14 18]

def R.is (x : R Bool) (b : Bool) : Bool := match x with
  | .ok c => c == b
  | _ => false

theorem R.is_eq {x : R Bool} {b : Bool} (hx : x.is b = true) : x = .ok b := by
  cases x <;> simp [R.is] at hx; rw [hx]

/-- For polymorphic types the comparison is neither transitive nor right: `F@<F@<X@>>` is accepted as
equal to two types that are not the same. -/
theorem C23_violated : fbleTypesEqual 20 polyHeap 7 13 = .ok true ∧ fbleTypesEqual 20 polyHeap 7 19 = .ok true ∧
    fbleTypesEqual 20 polyHeap 13 19 = .ok false ∧ ¬ SameType polyHeap [] 13 19 := by
  refine ⟨R.is_eq (by decide +kernel), R.is_eq (by decide +kernel), R.is_eq (by decide +kernel), fun hs => ?_⟩
  have fin : ∀ p n, polyHeap[p]? = some n → (∀ k v, n ≠ .var k (some v)) → (∀ q t, n ≠ .abstract q t) → Is polyHeap [] p p :=
    fun p n hn hv ha => .here (final_normal hn hv rfl fun q t path he => absurd he (ha q t))
  have h1 : At polyHeap [] [] 13 [0, 1, 0, 0] (.bound 1) :=
    .child (fin 13 _ rfl (by simp) (by simp)) rfl rfl
      (.child (fin 12 _ rfl (by simp) (by simp)) rfl rfl
        (.child (fin 11 _ rfl (by simp) (by simp)) rfl rfl
          (.child (fin 10 _ rfl (by simp) (by simp)) rfl rfl (.root (fin 8 _ rfl (by simp) (by simp)) rfl))))
  have h2 : At polyHeap [] [] 19 [0, 1, 0, 0] (.bound 0) :=
    .child (fin 19 _ rfl (by simp) (by simp)) rfl rfl
      (.child (fin 18 _ rfl (by simp) (by simp)) rfl rfl
        (.child (fin 17 _ rfl (by simp) (by simp)) rfl rfl
          (.child (fin 16 _ rfl (by simp) (by simp)) rfl rfl (.root (fin 15 _ rfl (by simp) (by simp)) rfl))))
  have := ((hs _ _).mp h1).unique h2
  simp at this

/-- A list type, and the same type with one element unrolled. -/
def listHeap : Heap := [
  .var (.basic 0) (some 3), .data .struct [], .data .struct [(⟨['h'], false⟩, 1), (⟨['t'], false⟩, 0)],
  .data .union [(⟨['c'], false⟩, 2), (⟨['n'], false⟩, 1)],
  .data .struct [(⟨['h'], false⟩, 1), (⟨['t'], false⟩, 3)], .data .union [(⟨['c'], false⟩, 4), (⟨['n'], false⟩, 1)]]

theorem listHeap_mono : Mono listHeap [] (· < 6) := by
  have cases6 : ∀ {P : Nat → Prop}, P 0 → P 1 → P 2 → P 3 → P 4 → P 5 → ∀ {t}, t < 6 → P t := by
    intro P h0 h1 h2 h3 h4 h5 t ht
    match t, ht with
    | 0, _ => exact h0
    | 1, _ => exact h1
    | 2, _ => exact h2
    | 3, _ => exact h3
    | 4, _ => exact h4
    | 5, _ => exact h5
  have fin : ∀ (p : Nat) n, listHeap[p]? = some n → (∀ k v, n ≠ .var k (some v)) → (∀ q t, n ≠ .abstract q t) → Is listHeap [] p p :=
    fun p n hn hv ha => .here (final_normal hn hv rfl fun q t path he => absurd he (ha q t))
  constructor
  · intro t ht; exact ⟨_, List.getElem?_eq_getElem ht⟩
  · intro t a b ht; revert ht; apply cases6 <;> simp [listHeap]
  · intro t a b ht; revert ht; apply cases6 <;> simp [listHeap]
  · intro t n c ht; revert ht; apply cases6 <;> (intro hg; cases hg; simp +contextual [Node.children])
    all_goals (rintro (rfl | rfl) <;> decide)
  · intro t k v ht; revert ht; apply cases6 <;> simp [listHeap]
    rintro _ rfl; decide
  · intro t v ht ha; simp [assigned] at ha
  · intro t q u ht; revert ht; apply cases6 <;> simp [listHeap]
  · intro t ht
    revert ht
    apply cases6
    · exact ⟨3, .value rfl (fin 3 _ rfl (by simp) (by simp))⟩
    · exact ⟨1, fin 1 _ rfl (by simp) (by simp)⟩
    · exact ⟨2, fin 2 _ rfl (by simp) (by simp)⟩
    · exact ⟨3, fin 3 _ rfl (by simp) (by simp)⟩
    · exact ⟨4, fin 4 _ rfl (by simp) (by simp)⟩
    · exact ⟨5, fin 5 _ rfl (by simp) (by simp)⟩

example : SameType listHeap [] 0 5 :=
  C23_sound listHeap_mono (by decide) (by decide) (n := 20) (R.is_eq (by decide +kernel))

/-! ### C24 -/

/-- lib/typecheck.c:1852-1854: `FbleTypesEqual` is called while the flag of one package is
cleared. -/
def opened (h : Heap) (q : Ptr) (path : List Name) : Heap := h.set q (.package path false)

/-- While a package is open, the comparison accepts exactly the types that unfold to the same tree
when abstract types of the package are replaced by the types inside. -/
theorem C24_opened {h : Heap} {q : Ptr} {path : List Name} {S : Ptr → Prop} (hm : Mono (opened h q path) [] S) {a b : Ptr} (ha : S a) (hb : S b) :
    ∃ N, ∀ n ≥ N, ∃ r, fbleTypesEqual n (opened h q path) a b = .ok r ∧ (r = true ↔ SameType (opened h q path) [] a b) :=
  typesEqual_correct hm ha hb

/-- While a package is open its abstract types are the types inside. -/
theorem C24_inside {h : Heap} {q : Ptr} {path : List Name} {t u : Ptr} (hq : q < h.length) (htq : t ≠ q) (ht : h[t]? = some (.abstract q u)) :
    SameType (opened h q path) [] t u := by
  intro p l
  refine Is.at (is_unwrap (q := q) (path := path) ?_ ?_) [] p l
  · rw [opened, List.getElem?_set_ne (fun he => htq he.symm)]; exact ht
  · rw [opened, List.getElem?_set_self hq]

/-- An abstract type of a package that is not open is the same only as an abstract type, of the
same package and with the same type inside. -/
theorem C24_closed {h : Heap} {S : Ptr → Prop} (hm : Mono h [] S) {a b q u : Ptr} {path : List Name} (ha : S a) (hb : S b)
    (hg : h[a]? = some (.abstract q u)) (hq : h[q]? = some (.package path true)) (hs : SameType h [] a b) :
    ∃ b' q' u', Is h [] b' b ∧ h[b']? = some (.abstract q' u') ∧ SameType h [] q q' ∧ SameType h [] u u' := by
  have hfa : Final h [] a := final_normal hg (by simp) rfl (by intro q' t' path' he; cases he; rw [hq]; simp)
  obtain ⟨b', hb'⟩ := hm.proper hb
  have key : S b' ∧ Final h [] b' := by
    clear hs
    induction hb' with
    | here hf => exact ⟨hb, hf⟩
    | value hg' _ ih => exact ih (hm.value hb hg')
    | inferred _ hi => simp [assigned] at hi
    | unwrap hg' _ _ ih => exact ih (hm.child hb hg' (by simp [Node.children]))
  obtain ⟨nb, hnb⟩ := key.2.node
  have hi : ∀ p, Is h [] p b ↔ Is h [] p b' := fun p => ⟨fun h1 => by rw [h1.unique hb']; exact .here key.2, fun h1 => by rw [(is_final key.2 p).mp h1]; exact hb'⟩
  obtain ⟨h1, h2⟩ := sameType_final hm ha key.1 hfa key.2 hg hnb (sameType_right hi hs)
  cases nb with
  | abstract q' u' =>
    refine ⟨b', q', u', hb', hnb, ?_⟩
    cases h2 with
    | cons h3 h4 => cases h4 with
      | cons h5 h6 => exact ⟨h3, h5⟩
  | var k v => cases v <;> simp [label] at h1
  | _ => simp [label] at h1

/-- `A@ = Pkg@<A@>` and two types. -/
def openHeap : Heap := [.package [⟨['p'], false⟩] true, .var (.basic 0) (some 2), .abstract 0 1, .data .struct [], .data .union [(⟨['x'], false⟩, 3)]]

/-- A cycle through an abstract type alone: while the package is open it is accepted as equal to
types that are not the same. -/
theorem C24_violated : fbleTypesEqual 20 (opened openHeap 0 [⟨['p'], false⟩]) 1 3 = .ok true ∧
    fbleTypesEqual 20 (opened openHeap 0 [⟨['p'], false⟩]) 1 4 = .ok true ∧
    fbleTypesEqual 20 (opened openHeap 0 [⟨['p'], false⟩]) 3 4 = .ok false ∧
    (∃ h' t, typeIsVacuous 20 openHeap 1 = .ok (h', t) ∧ t = false) := by
  refine ⟨R.is_eq (by decide +kernel), R.is_eq (by decide +kernel), R.is_eq (by decide +kernel), openHeap, false, by decide +kernel, rfl⟩

end Verif.Types
