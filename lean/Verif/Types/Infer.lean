import Verif.Types.Thm
/-!
# Inference of types

lib/type.c:1113-1116 `FbleTypeInfer`: types are compared, where some variables of the first type have
to be found.
-/
namespace Verif.Types

/-- Types found for variables of a set of types, from a set of types in which the variables do not
occur, can be put in place of the variables. -/
theorem mono_infer {h : Heap} {S T : Ptr → Prop} {σ : Vars} (hS : Mono h [] S) (hT : Mono h [] T) (hTS : ∀ t, T t → S t)
    (hσ : ∀ v t, assigned σ v = some t → (∃ k, h[v]? = some (.var k none)) ∧ T t ∧ ¬ T v) : Mono h σ S := by
  have pT : ∀ {p t}, Is h [] p t → T t → Is h σ p t := by
    intro p t hi ht
    induction hi with
    | here hf =>
      refine .here ⟨hf.node, hf.noValue, fun k hk => ?_, hf.opaq⟩
      cases ha : assigned σ p with
      | none => rfl
      | some v => exact absurd ht (hσ _ _ ha).2.2
    | value hg _ ih => exact .value hg (ih (hT.value ht hg))
    | inferred _ ha => simp [assigned] at ha
    | unwrap hg hq _ ih => exact .unwrap hg hq (ih (hT.child ht hg (by simp [Node.children])))
  have pS : ∀ {p t}, Is h [] p t → S t → ∃ q, Is h σ q t := by
    intro p t hi ht
    induction hi with
    | here hf =>
      cases ha : assigned σ p with
      | none => exact ⟨p, .here ⟨hf.node, hf.noValue, fun k hk => ha, hf.opaq⟩⟩
      | some v =>
        obtain ⟨⟨k, hk⟩, h2, h3⟩ := hσ _ _ ha
        obtain ⟨q, hq⟩ := hT.proper h2
        exact ⟨q, .inferred hk ha (pT hq h2)⟩
    | value hg _ ih => exact (ih (hS.value ht hg)).imp fun _ => .value hg
    | inferred _ ha => simp [assigned] at ha
    | unwrap hg hq _ ih => exact (ih (hS.child ht hg (by simp [Node.children]))).imp fun _ => .unwrap hg hq
  exact { node := hS.node, noPoly := hS.noPoly, noApply := hS.noApply, child := hS.child, value := hS.value, package := hS.package
          inferred := fun {t v} ht ha => ⟨hTS _ (hσ _ _ ha).2.1, (hσ _ _ ha).1⟩
          proper := fun {t} ht => by obtain ⟨p, hp⟩ := hS.proper ht; exact pS hp ht }

theorem assigned_mem {σ : Vars} {v t : Ptr} (ha : assigned σ v = some t) : v ∈ σ.map (·.1) := by
  unfold assigned at ha
  cases hf : σ.find? (fun x => x.1 = v) with
  | none => rw [hf] at ha; cases ha
  | some x =>
    have h1 := List.find?_some hf
    have h2 := List.mem_of_find?_eq_some hf
    simp at h1
    exact List.mem_map.mpr ⟨x, h2, h1⟩

/-- If `FbleTypeInfer` accepts, the types it has found make the two types the same; they are parts
of the second type, for the given variables only. -/
theorem C58_infer {h : Heap} {S T : Ptr → Prop} (hS : Mono h [] S) (hT : Mono h [] T) (hTS : ∀ t, T t → S t) {vars : Vars}
    (hvar : ∀ v ∈ vars.map (·.1), (∃ k, h[v]? = some (.var k none)) ∧ ¬ T v) (hnone : ∀ v t, assigned vars v = some t → T t) {a b : Ptr} (ha : S a) (hb : T b)
    {n : Nat} {h' : Heap} {vars' : Vars} (he : typesEqual n [] h vars a b = .ok (h', vars', true)) :
    h' = h ∧ vars'.map (·.1) = vars.map (·.1) ∧ (∀ v t, assigned vars v = some t → assigned vars' v = some t) ∧ (∀ v t, assigned vars' v = some t → T t) ∧ SameType h vars' a b := by
  obtain ⟨h1, h2, h3, h4⟩ := typesEqual_keeps hS.mono0 hT.mono0 hTS n [] vars a b ha hb hnone h' vars' true he
  refine ⟨h1, h4, h2, h3, ?_⟩
  have hm : Mono h vars' S := mono_infer hS hT hTS fun v t hv => by
    have := hvar v (by rw [← h4]; exact assigned_mem hv)
    exact ⟨this.1, h3 v t hv, this.2⟩
  rw [sameType_iff]
  intro k
  refine (typesEqual_sound hS.mono0 hT.mono0 hTS n [] vars a b h' vars' ha hb hnone he vars' hm (Extends.refl _) k ?_).le (by omega)
  intro x y hxy; cases hxy

/-- `FbleTypeInfer` ends, and accepts if there are any types for the variables that make the two types
the same. -/
theorem C58_complete {h : Heap} {S T : Ptr → Prop} (hS : Mono h [] S) (hT : Mono h [] T) (hTS : ∀ t, T t → S t) {vars : Vars}
    (hvar : ∀ v ∈ vars.map (·.1), (∃ k, h[v]? = some (.var k none)) ∧ ¬ T v) (hnone : ∀ v, assigned vars v = none) {a b : Ptr} (ha : S a) (hb : T b) :
    ∃ N, ∀ n ≥ N, ∃ vars' r, typesEqual n [] h vars a b = .ok (h, vars', r) ∧
      (r = true ↔ ∃ σ : Vars, (∀ v t, assigned σ v = some t → v ∈ vars.map (·.1) ∧ T t) ∧ SameType h σ a b) := by
  obtain ⟨B, hB⟩ := chain_bound hS
  refine ⟨open_ h.length [] + B + 2, fun n hn => ?_⟩
  have hinv : Inv (vars.map (·.1)) T vars := ⟨rfl, fun v t hvt => by rw [hnone v] at hvt; cases hvt⟩
  have hfits : ∀ σ, Fits h σ vars := fun σ v t hvt => by rw [hnone v] at hvt; cases hvt
  have run := fun (σ : Vars) hσ => typesEqual_answers (σ := σ) (K := vars.map (·.1)) hS.mono0 hT.mono0 hTS hB (fun v hv => (hvar v hv).2) hσ _ [] (Nat.le_refl _) n hn a b ha hb vars hinv
  obtain ⟨v, r, h1, hi, _⟩ := run [] (by simp [assigned])
  refine ⟨v, r, h1, fun hr => ?_, ?_⟩
  · subst hr
    obtain ⟨_, h2, _, h3, h4⟩ := C58_infer hS hT hTS hvar (fun v t hvt => by rw [hnone v] at hvt; cases hvt) ha hb h1
    exact ⟨v, fun x t hx => ⟨by rw [← h2]; exact assigned_mem hx, h3 x t hx⟩, h4⟩
  · rintro ⟨σ, hσ, hs⟩
    obtain ⟨v', r', h2, _, h3⟩ := run σ fun v t hvt => (hσ v t hvt).1
    rw [h1] at h2; cases h2
    refine (h3 (hfits σ) ⟨mono_infer hS hT hTS fun v t hvt => ?_, hs⟩).1
    obtain ⟨h4, h5⟩ := hvar v (hσ v t hvt).1
    exact ⟨h4, (hσ v t hvt).2, h5⟩

/-- `(X@) { Y@; }` where `X@` and `Y@` are to be found, and a function on lists. -/
def inferHeap : Heap := listHeap ++ [.var (.basic 0) none, .var (.basic 0) none, .func 6 7, .func 5 1, .func 8 6, .func 9 0]

/-- The inferred types are 5 and 1; the second use of `X@` is compared with the unrolled list. -/
example : typesEqual 20 [] inferHeap [(6, none), (7, none)] 10 11 = .ok (inferHeap, [(6, some 5), (7, some 1)], true) := by
  decide +kernel

end Verif.Types
