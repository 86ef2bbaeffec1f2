import Verif.Types.Spec
import Verif.Types.Kind
import Verif.Util
/-!
# Comparison of types: soundness
-/
namespace Verif.Types

theorem All2.get? {α β : Type} {R : α → β → Prop} {as : List α} {bs : List β} (h : All2 R as bs) {i : Nat} {a : α} {b : β} (ha : as[i]? = some a) (hb : bs[i]? = some b) : R a b := by
  rw [List.getElem?_eq_some_iff] at ha hb
  obtain ⟨h1, rfl⟩ := ha
  obtain ⟨h2, rfl⟩ := hb
  exact h.get i h1 h2

theorem get_ok {h : Heap} {p : Ptr} {n : Node} : get h p = .ok n ↔ h[p]? = some n := by
  unfold get
  cases h[p]? <;> simp

/-! ### What a type stands for -/

section
variable {h : Heap} {σ : Vars}

theorem is_value {t k v} (hg : h[t]? = some (.var k (some v))) (p : Ptr) : Is h σ p t ↔ Is h σ p v := by
  refine ⟨fun hi => ?_, .value hg⟩
  cases hi with
  | here hf => exact absurd hg (hf.noValue _ _)
  | value hg' h2 => rw [hg] at hg'; cases hg'; exact h2
  | inferred hg' => rw [hg] at hg'; cases hg'
  | unwrap hg' => rw [hg] at hg'; cases hg'

theorem is_inferred {t k v} (hg : h[t]? = some (.var k none)) (ha : assigned σ t = some v) (p : Ptr) : Is h σ p t ↔ Is h σ p v := by
  refine ⟨fun hi => ?_, .inferred hg ha⟩
  cases hi with
  | here hf => rw [hf.notInferred _ hg] at ha; cases ha
  | value hg' h2 => rw [hg] at hg'; cases hg'
  | inferred hg' ha' h2 => rw [ha] at ha'; cases ha'; exact h2
  | unwrap hg' => rw [hg] at hg'; cases hg'

theorem is_unwrap {t q u path} (hg : h[t]? = some (.abstract q u)) (hq : h[q]? = some (.package path false)) (p : Ptr) : Is h σ p t ↔ Is h σ p u := by
  refine ⟨fun hi => ?_, .unwrap hg hq⟩
  cases hi with
  | here hf => exact absurd hq (hf.opaq _ _ _ hg)
  | value hg' h2 => rw [hg] at hg'; cases hg'
  | inferred hg' => rw [hg] at hg'; cases hg'
  | unwrap hg' _ h2 => rw [hg] at hg'; cases hg'; exact h2

theorem is_final {t} (hf : Final h σ t) (p : Ptr) : Is h σ p t ↔ p = t := by
  refine ⟨fun hi => ?_, fun he => by subst he; exact .here hf⟩
  cases hi with
  | here hf => rfl
  | value hg => exact absurd hg (hf.noValue _ _)
  | inferred hg ha => rw [hf.notInferred _ hg] at ha; cases ha
  | unwrap hg hq => exact absurd hq (hf.opaq _ _ _ hg)

theorem Is.unique {p p' t} (h1 : Is h σ p t) (h2 : Is h σ p' t) : p = p' := by
  induction h1 with
  | here hf => exact ((is_final hf _).mp h2).symm
  | value hg _ ih => exact ih ((is_value hg _).mp h2)
  | inferred hg ha _ ih => exact ih ((is_inferred hg ha _).mp h2)
  | unwrap hg hq _ ih => exact ih ((is_unwrap hg hq _).mp h2)

/-- The number of transparent abstract types around a type. -/
inductive Rank (h : Heap) (σ : Vars) : Ptr → Nat → Prop where
  | here {p} : Final h σ p → Rank h σ p 0
  | value {t k v r} : h[t]? = some (.var k (some v)) → Rank h σ v r → Rank h σ t r
  | inferred {t k v r} : h[t]? = some (.var k none) → assigned σ t = some v → Rank h σ v r → Rank h σ t r
  | unwrap {t q u path r} : h[t]? = some (.abstract q u) → h[q]? = some (.package path false) → Rank h σ u r → Rank h σ t (r + 1)

theorem Is.rank {p t} (hi : Is h σ p t) : ∃ r, Rank h σ t r := by
  induction hi with
  | here hf => exact ⟨0, .here hf⟩
  | value hg _ ih => exact ih.imp fun _ => .value hg
  | inferred hg ha _ ih => exact ih.imp fun _ => .inferred hg ha
  | unwrap hg hq _ ih => exact ih.elim fun r hr => ⟨r + 1, .unwrap hg hq hr⟩

theorem Rank.unique {t r r'} (h1 : Rank h σ t r) (h2 : Rank h σ t r') : r = r' := by
  induction h1 generalizing r' with
  | here hf =>
    cases h2 with
    | here => rfl
    | value hg => exact absurd hg (hf.noValue _ _)
    | inferred hg ha => rw [hf.notInferred _ hg] at ha; cases ha
    | unwrap hg hq => exact absurd hq (hf.opaq _ _ _ hg)
  | value hg h1 ih =>
    cases h2 with
    | here hf => exact absurd hg (hf.noValue _ _)
    | value hg' h2 => rw [hg] at hg'; cases hg'; exact ih h2
    | inferred hg' => rw [hg] at hg'; cases hg'
    | unwrap hg' => rw [hg] at hg'; cases hg'
  | inferred hg ha h1 ih =>
    cases h2 with
    | here hf => rw [hf.notInferred _ hg] at ha; cases ha
    | value hg' h2 => rw [hg] at hg'; cases hg'
    | inferred hg' ha' h2 => rw [ha] at ha'; cases ha'; exact ih h2
    | unwrap hg' => rw [hg] at hg'; cases hg'
  | unwrap hg hq h1 ih =>
    cases h2 with
    | here hf => exact absurd hq (hf.opaq _ _ _ hg)
    | value hg' h2 => rw [hg] at hg'; cases hg'
    | inferred hg' => rw [hg] at hg'; cases hg'
    | unwrap hg' _ h2 => rw [hg] at hg'; cases hg'; rw [ih h2]

open Classical in
/-- `Rank` as a function. -/
noncomputable def rk (h : Heap) (σ : Vars) (t : Ptr) : Nat := if hr : ∃ r, Rank h σ t r then hr.choose else 0

theorem Rank.rk {t r} (hr : Rank h σ t r) : rk h σ t = r := by
  have : ∃ r, Rank h σ t r := ⟨r, hr⟩
  rw [Types.rk, dif_pos this]
  exact this.choose_spec.unique hr

theorem Is.at {a b} (hi : ∀ p, Is h σ p a ↔ Is h σ p b) (ρ path l) : At h σ ρ a path l ↔ At h σ ρ b path l := by
  constructor
  · intro ha
    cases ha with
    | root h1 h2 => exact .root ((hi _).mp h1) h2
    | child h1 h2 h3 h4 => exact .child ((hi _).mp h1) h2 h3 h4
  · intro ha
    cases ha with
    | root h1 h2 => exact .root ((hi _).mpr h1) h2
    | child h1 h2 h3 h4 => exact .child ((hi _).mpr h1) h2 h3 h4

/-- The trees are the same up to some depth. -/
def Agree (h : Heap) (σ : Vars) (k : Nat) (a b : Ptr) : Prop := ∀ path l, path.length < k → (At h σ [] a path l ↔ At h σ [] b path l)

theorem Agree.zero {a b} : Agree h σ 0 a b := fun _ _ hp => absurd hp (by omega)

theorem Agree.le {k k' a b} (ha : Agree h σ k a b) (hk : k' ≤ k) : Agree h σ k' a b := fun path l hp => ha path l (by omega)

theorem Agree.refl {k a} : Agree h σ k a a := fun _ _ _ => Iff.rfl

theorem Agree.left {k a a' b} (hi : ∀ p, Is h σ p a ↔ Is h σ p a') (ha : Agree h σ k a' b) : Agree h σ k a b :=
  fun path l hp => (Is.at hi [] path l).trans (ha path l hp)

theorem Agree.right {k a b b'} (hi : ∀ p, Is h σ p b ↔ Is h σ p b') (ha : Agree h σ k a b') : Agree h σ k a b :=
  fun path l hp => (ha path l hp).trans (Is.at hi [] path l).symm

theorem sameType_iff {a b} : SameType h σ a b ↔ ∀ k, Agree h σ k a b :=
  ⟨fun hs _ path l _ => hs path l, fun ha path l => ha (path.length + 1) path l (by omega)⟩

theorem at_final {ρ a n path l} (hf : Final h σ a) (hn : h[a]? = some n) : At h σ ρ a path l ↔
    (path = [] ∧ l = label h ρ a n) ∨ ∃ i c path', path = i :: path' ∧ n.children[i]? = some c ∧ At h σ (n.binders ++ ρ) c path' l := by
  constructor
  · intro ha
    cases ha with
    | root h1 h2 =>
      rw [(is_final hf _).mp h1, hn] at h2; cases h2
      rw [(is_final hf _).mp h1]
      exact .inl ⟨rfl, rfl⟩
    | child h1 h2 h3 h4 =>
      rw [(is_final hf _).mp h1, hn] at h2; cases h2
      exact .inr ⟨_, _, _, rfl, h3, h4⟩
  · rintro (⟨rfl, rfl⟩ | ⟨i, c, path', rfl, h3, h4⟩)
    · exact .root (.here hf) hn
    · exact .child (.here hf) hn h3 h4

theorem Agree.step {k a b na nb} (ha : Final h σ a) (hb : Final h σ b) (hna : h[a]? = some na) (hnb : h[b]? = some nb)
    (hl : label h [] a na = label h [] b nb) (hba : na.binders = []) (hbb : nb.binders = [])
    (hc : All2 (Agree h σ k) na.children nb.children) : Agree h σ (k + 1) a b := by
  intro path l hp
  rw [at_final ha hna, at_final hb hnb, hl, hba, hbb]
  refine or_congr Iff.rfl ⟨?_, ?_⟩
  · rintro ⟨i, c, path', rfl, h3, h4⟩
    obtain ⟨d, h5⟩ : ∃ d, nb.children[i]? = some d := by
      have : i < nb.children.length := by
        rw [← hc.length_eq]; rw [List.getElem?_eq_some_iff] at h3; exact h3.1
      exact ⟨_, List.getElem?_eq_getElem this⟩
    refine ⟨i, d, path', rfl, h5, ?_⟩
    exact (All2.get? hc h3 h5 path' l (by simp at hp; omega)).mp h4
  · rintro ⟨i, c, path', rfl, h3, h4⟩
    obtain ⟨d, h5⟩ : ∃ d, na.children[i]? = some d := by
      have : i < na.children.length := by
        rw [hc.length_eq]; rw [List.getElem?_eq_some_iff] at h3; exact h3.1
      exact ⟨_, List.getElem?_eq_getElem this⟩
    refine ⟨i, d, path', rfl, h5, ?_⟩
    exact (All2.get? hc h5 h3 path' l (by simp at hp; omega)).mpr h4

end

/-! ### Normal forms of types that are not polymorphic -/

/-- What `Mono` says about the heap alone. -/
structure Mono0 (h : Heap) (S : Ptr → Prop) : Prop where
  node : ∀ {t}, S t → ∃ n, h[t]? = some n
  noPoly : ∀ {t a b}, S t → h[t]? ≠ some (.poly a b)
  noApply : ∀ {t a b}, S t → h[t]? ≠ some (.polyApply a b)
  child : ∀ {t n c}, S t → h[t]? = some n → c ∈ n.children → S c
  value : ∀ {t k v}, S t → h[t]? = some (.var k (some v)) → S v
  package : ∀ {t q u}, S t → h[t]? = some (.abstract q u) → ∃ path opaq, h[q]? = some (.package path opaq)

theorem Mono.mono0 {h σ S} (hm : Mono h σ S) : Mono0 h S :=
  ⟨hm.node, hm.noPoly, hm.noApply, hm.child, hm.value, hm.package⟩

/-- `p` is reached from `t` through variables that have a value. -/
inductive NormalTo (h : Heap) (p : Ptr) : Ptr → Prop where
  | here {n} : h[p]? = some n → (∀ k v, n ≠ .var k (some v)) → NormalTo h p p
  | value {t k v} : h[t]? = some (.var k (some v)) → NormalTo h p v → NormalTo h p t

theorem NormalTo.is {h : Heap} {p t : Ptr} (hn : NormalTo h p t) {σ : Vars} (q : Ptr) : Is h σ q t ↔ Is h σ q p := by
  induction hn with
  | here => exact Iff.rfl
  | value hg _ ih => exact (is_value hg q).trans ih

theorem NormalTo.mem {h : Heap} {p t : Ptr} (hn : NormalTo h p t) {S : Ptr → Prop} (hm : Mono0 h S) (ht : S t) : S p := by
  induction hn with
  | here => exact ht
  | value hg _ ih => exact ih (hm.value ht hg)

theorem NormalTo.node {h : Heap} {p t : Ptr} (hn : NormalTo h p t) : ∃ n, h[p]? = some n ∧ ∀ k v, n ≠ .var k (some v) := by
  induction hn with
  | here h1 h2 => exact ⟨_, h1, h2⟩
  | value _ _ ih => exact ih

theorem NormalTo.rank {h : Heap} {p t : Ptr} (hn : NormalTo h p t) {σ : Vars} {r : Nat} (hr : Rank h σ p r) : Rank h σ t r := by
  induction hn with
  | here => exact hr
  | value hg _ ih => exact .value hg ih

theorem normal_inv (n : Nat) {h h' : Heap} {S : Ptr → Prop} (hm : Mono0 h S) {N : List Ptr} {t : Ptr} {o : Option Ptr} (ht : S t)
    (hr : normal n N h t = .ok (h', o)) : h' = h ∧ ∀ p, o = some p → NormalTo h p t := by
  induction n generalizing N t with
  | zero => cases hr
  | succ n ih =>
    rw [normal] at hr
    split at hr
    · cases hr; exact ⟨rfl, by intro p hp; cases hp⟩
    · rw [R.bind_eq_ok] at hr
      obtain ⟨nd, h1, h2⟩ := hr
      rw [get_ok] at h1
      have self : (∀ k v, nd ≠ .var k (some v)) → (R.ok (h, some t) : R (Heap × Option Ptr)) = .ok (h', o) → h' = h ∧ ∀ p, o = some p → NormalTo h p t := by
        intro hv he
        cases he
        exact ⟨rfl, fun p hp => by cases hp; exact .here h1 hv⟩
      cases nd with
      | poly a b => exact absurd h1 (hm.noPoly ht)
      | polyApply a b => exact absurd h1 (hm.noApply ht)
      | var k v =>
        cases v with
        | none => exact self (by simp) h2
        | some v =>
          obtain ⟨h3, h4⟩ := ih (hm.value ht h1) h2
          exact ⟨h3, fun p hp => .value h1 (h4 p hp)⟩
      | data => exact self (by simp) h2
      | func => exact self (by simp) h2
      | package => exact self (by simp) h2
      | abstract => exact self (by simp) h2
      | type => exact self (by simp) h2

theorem normalType_inv (n : Nat) {h h' : Heap} {S : Ptr → Prop} (hm : Mono0 h S) {t p : Ptr} (ht : S t)
    (hr : normalType n h t = .ok (h', p)) : h' = h ∧ NormalTo h p t := by
  rw [normalType, R.bind_eq_ok] at hr
  obtain ⟨⟨h1, o⟩, h2, h3⟩ := hr
  obtain ⟨rfl, h4⟩ := normal_inv n hm ht h2
  cases o with
  | none => cases h3
  | some q => cases h3; exact ⟨rfl, h4 _ rfl⟩

/-! ### Inference -/

/-- Types that are inferred stay inferred. -/
def Extends (vars vars' : Vars) : Prop := ∀ p t, assigned vars p = some t → assigned vars' p = some t

theorem Extends.refl (vars : Vars) : Extends vars vars := fun _ _ h => h
theorem Extends.trans {a b c : Vars} (h1 : Extends a b) (h2 : Extends b c) : Extends a c := fun p t h => h2 p t (h1 p t h)

theorem find_of_findIdx {vars : Vars} {a : Ptr} {i : Nat} (hi : vars.findIdx? (fun v => v.1 = a) = some i) :
    ∃ o, vars[i]? = some (a, o) ∧ assigned vars a = o ∧
      ∀ b p, assigned (vars.set i (a, some b)) p = if p = a then some b else assigned vars p := by
  induction vars generalizing i with
  | nil => simp at hi
  | cons v vars ih =>
    obtain ⟨x, o⟩ := v
    rw [List.findIdx?_cons] at hi
    by_cases hx : x = a
    · simp only [hx, decide_true, if_true] at hi
      cases hi
      subst hx
      refine ⟨o, rfl, by simp [assigned], fun b p => ?_⟩
      simp only [List.set_cons_zero, assigned, List.find?_cons]
      by_cases hp : p = x
      · subst hp; simp
      · simp [Ne.symm hp, hp]
    · simp only [hx, decide_false] at hi
      simp at hi
      obtain ⟨j, hj, rfl⟩ := hi
      obtain ⟨o', h1, h2, h3⟩ := ih hj
      refine ⟨o', by simpa using h1, by simpa [assigned, hx] using h2, fun b p => ?_⟩
      have := h3 b p
      simp only [List.set_cons_succ, assigned, List.find?_cons] at this ⊢
      by_cases hp : x = p
      · subst hp; simp [hx]
      · simp only [hp, decide_false]; exact this

end Verif.Types
