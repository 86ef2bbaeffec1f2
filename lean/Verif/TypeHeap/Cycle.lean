import Verif.TypeHeap.Steps
/-
The steps of IncrGc keep the invariant.
-/
namespace Verif.TypeHeap

theorem Inv.canon_I {x h} (inv : Inv x h) {o g} (hc : canon h (h.gen o) = g) : h.I o = h.id g := by
  unfold canon at hc
  unfold Heap.I
  split at hc
  · rename_i h1
    rw [h1, ← hc, inv.gcId _ inv.gcHead_mem]
  · rw [hc]

theorem Inv.of_root {h} (inv : Inv none h) {o g} (ho : o ∈ h.roots g) : Live h o ∧ h.I o = h.id g ∧ 0 < h.refcount o := by
  obtain ⟨h1, h2, h3⟩ := (inv.rootsOk g o (by simp)).mp ho
  exact ⟨h1, inv.canon_I h2, h3⟩

theorem Inv.of_nonRoot {h} (inv : Inv none h) {o g} (ho : o ∈ h.nonRoots g) : Live h o ∧ h.I o = h.id g ∧ h.refcount o = 0 := by
  obtain ⟨h1, h2, h3⟩ := (inv.nonRootsOk g o (by simp)).mp ho
  exact ⟨h1, inv.canon_I h2, h3⟩

/-- Following the references of an object in mark and settling it. -/
theorem markStep_ok {x h o} (inv : Inv x h) (hl : Live h o) (hi : h.I o = .mark) (hx : x = none ∨ x = some o) {h'}
    (hm : Moved (typeRefs h o) h' o h.oldHead) : Inv none h' ∧ (∀ p, Live h' p ↔ Live h p) := by
  obtain ⟨i1, s1, s2, s3, s4⟩ := typeRefs_ok inv hl (by
    intro p hp
    rcases hx with h1 | h1 <;> rw [h1] at hp
    · cases hp
    · injection hp with hp; rw [← hp]; exact hi)
  have hl' : Live (typeRefs h o) o := (s1.live o).mpr hl
  refine ⟨settle_ok i1 hl' hx (s2.trans hi) ?_ (by rw [s1.oldHead]; exact hm), fun p => (hm.live hl' p).trans (s1.live p)⟩
  intro p hp
  rw [s1.refs] at hp
  refine ⟨s3 (by rw [hi]; simp) p hp, (s4 hi p hp).1, fun N h1 h2 => ?_⟩
  rw [s1.id, s1.oldHead] at h2
  exact (s4 hi p hp).2 N h1 h2

/-- Likewise for an object in gc or save, which is first said to be in mark. -/
theorem rootStep_ok {h o} (inv : Inv none h) (hl : Live h o) (hi : h.I o = .gc ∨ h.I o = .save) {h'}
    (hm : Moved (typeRefs { h with gen := upd h.gen o h.mark } o) h' o h.oldHead) : Inv none h' ∧ (∀ p, Live h' p ↔ Live h p) := by
  have i1 := toMark_ok inv hl hi
  refine markStep_ok i1 hl ?_ (.inr rfl) hm
  show h.id (upd h.gen o h.mark o) = .mark
  rw [upd_eq, inv.markId]

/-- The step for a non-root in save. -/
theorem saveStep_ok {h o} (inv : Inv none h) (hl : Live h o) (hi : h.I o = .save) {h'}
    (hm : Moved (typeRefs h o) h' o h.new) : Inv none h' ∧ (∀ p, Live h' p ↔ Live h p) := by
  obtain ⟨i1, s1, s2, s3, s4⟩ := typeRefs_ok inv hl (by simp)
  have hl' : Live (typeRefs h o) o := (s1.live o).mpr hl
  refine ⟨?_, fun p => (hm.live hl' p).trans (s1.live p)⟩
  have hnew : (typeRefs h o).id h.new = .new := by rw [s1.id]; exact inv.newId
  refine hm.inv i1 (fun p _ _ => by simp) hl' ?_ ?_ ?_
  · rw [s1.new]; simp
  · intro p hp
    rw [hnew]
    rw [s1.refs] at hp
    unfold Edge
    simp only
    split
    · simp
    · exact s3 (by rw [hi]; simp) p hp
  · intro p hne hp hop
    have he := i1.edge p hp o hop
    rw [s2, hi] at he
    rw [hnew]
    unfold Edge at he ⊢
    cases hip : (typeRefs h o).I p with
    | num n =>
      rw [hip] at he
      simp only at he ⊢
      simp at he
      exact .inr (.inr ⟨by simp, he⟩)
    | gc => trivial
    | mark => trivial
    | save => trivial
    | new => simp

/-! ### The end of a cycle -/

theorem splitAfter_eq {next : GenP} {l : List GenP} (hn : next ∈ l) :
    (splitAfter next l).1 ++ (splitAfter next l).2 = l ∧ next ∈ (splitAfter next l).1 ∧
    (splitAfter next l).1.head? = l.head? ∧ ∃ pre, (splitAfter next l).1 = pre ++ [next] := by
  induction l with
  | nil => simp at hn
  | cons a l ih =>
    unfold splitAfter
    split
    · rename_i h1; subst h1; exact ⟨rfl, by simp, by simp, [], rfl⟩
    · rename_i h1
      obtain ⟨h2, h3, h4, pre, h5⟩ := ih ((List.mem_cons.mp hn).resolve_left (Ne.symm h1))
      exact ⟨by simp [h2], by simp [h3], by simp, a :: pre, by simp [h5]⟩

structure Absorbed (c : GenP) (gs : List GenP) (h h' : Heap) : Prop where
  eq : h' = { h with id := h'.id, roots := h'.roots, nonRoots := h'.nonRoots }
  id : ∀ g, h'.id g = if g ∈ gs then .gc else h.id g
  roots : ∀ g p, p ∈ h'.roots g ↔ (g = c ∧ ∃ a, (a = c ∨ a ∈ gs) ∧ p ∈ h.roots a) ∨ (g ≠ c ∧ g ∉ gs ∧ p ∈ h.roots g)
  nonRoots : ∀ g p, p ∈ h'.nonRoots g ↔ (g = c ∧ ∃ a, (a = c ∨ a ∈ gs) ∧ p ∈ h.nonRoots a) ∨ (g ≠ c ∧ g ∉ gs ∧ p ∈ h.nonRoots g)
  ndRoots : (∀ g, (h.roots g).Nodup) → (∀ a b p, p ∈ h.roots a → p ∈ h.roots b → a = b) → ∀ g, (h'.roots g).Nodup
  rest : ∀ g, g ≠ c → g ∉ gs → h'.roots g = h.roots g
  ndNonRoots : (∀ g, (h.nonRoots g).Nodup) → (∀ a b p, p ∈ h.nonRoots a → p ∈ h.nonRoots b → a = b) → ∀ g, (h'.nonRoots g).Nodup

theorem upd_two_mem {f : GenP → List Obj} {c g x : GenP} {p : Obj} (hc : g ≠ c) :
    p ∈ upd (upd f c (f g ++ f c)) g [] x ↔ (x = c ∧ (p ∈ f g ∨ p ∈ f c)) ∨ (x ≠ c ∧ x ≠ g ∧ p ∈ f x) := by
  unfold upd
  by_cases h1 : x = g
  · subst h1; simp [hc]
  · by_cases h2 : x = c
    · subst h2; simp [h1]
    · simp [h1, h2]

theorem upd_two_nodup {f : GenP → List Obj} {c g : GenP} (hc : g ≠ c) (hn : ∀ g, (f g).Nodup)
    (hd : ∀ a b p, p ∈ f a → p ∈ f b → a = b) (x) : (upd (upd f c (f g ++ f c)) g [] x).Nodup := by
  unfold upd
  split
  · simp
  · split
    · exact List.nodup_append.mpr ⟨hn _, hn _, fun a ha b hb hab => hc (hd _ _ a ha (hab ▸ hb))⟩
    · exact hn x

theorem absorb_fold {c : GenP} (gs : List GenP) : ∀ (h : Heap), gs.Nodup → c ∉ gs → Absorbed c gs h (gs.foldl (absorb c) h) := by
  induction gs with
  | nil =>
    intro h _ _
    refine ⟨rfl, fun g => by simp, ?_, ?_, fun h _ => h, fun _ _ _ => rfl, fun h _ => h⟩
    · intro g p
      by_cases hg : g = c
      · subst hg; simp
      · simp [hg]
    · intro g p
      by_cases hg : g = c
      · subst hg; simp
      · simp [hg]
  | cons a gs ih =>
    intro h hnd hc
    obtain ⟨n1, n2⟩ := List.nodup_cons.mp hnd
    simp only [List.mem_cons, not_or] at hc
    have i := ih (absorb c h a) n2 hc.2
    rw [List.foldl_cons]
    generalize List.foldl (absorb c) (absorb c h a) gs = k at i
    have key : ∀ (f k : GenP → List Obj), (∀ g p, p ∈ k g ↔ (g = c ∧ ∃ b, (b = c ∨ b ∈ gs) ∧ p ∈ upd (upd f c (f a ++ f c)) a [] b) ∨
        (g ≠ c ∧ g ∉ gs ∧ p ∈ upd (upd f c (f a ++ f c)) a [] g)) → ∀ g p, p ∈ k g ↔
        (g = c ∧ ∃ b, (b = c ∨ b ∈ a :: gs) ∧ p ∈ f b) ∨ (g ≠ c ∧ g ∉ a :: gs ∧ p ∈ f g) := by
      intro f k hk g p
      rw [hk]
      simp only [upd_two_mem (Ne.symm hc.1), List.mem_cons]
      constructor
      · rintro (⟨h1, b, h2, h3⟩ | ⟨h1, h2, h3⟩)
        · left
          refine ⟨h1, ?_⟩
          rcases h3 with ⟨_, h3 | h3⟩ | ⟨_, h3, h4⟩
          · exact ⟨a, .inr (.inl rfl), h3⟩
          · exact ⟨c, .inl rfl, h3⟩
          · exact ⟨b, by tauto, h4⟩
        · right
          exact ⟨h1, by tauto, by tauto⟩
      · rintro (⟨h1, b, h2, h3⟩ | ⟨h1, h2, h3⟩)
        · left
          refine ⟨h1, ?_⟩
          rcases h2 with rfl | rfl | h2
          · exact ⟨b, .inl rfl, .inl ⟨rfl, .inr h3⟩⟩
          · exact ⟨c, .inl rfl, .inl ⟨rfl, .inl h3⟩⟩
          · refine ⟨b, .inr h2, .inr ⟨?_, ?_, h3⟩⟩
            · rintro rfl; exact hc.2 h2
            · rintro rfl; exact n1 h2
        · right
          exact ⟨h1, by tauto, by tauto⟩
    have hdis : ∀ (f : GenP → List Obj), (∀ a b p, p ∈ f a → p ∈ f b → a = b) →
        ∀ x y p, p ∈ upd (upd f c (f a ++ f c)) a [] x → p ∈ upd (upd f c (f a ++ f c)) a [] y → x = y := by
      intro f hd x y p hx hy
      rw [upd_two_mem (Ne.symm hc.1)] at hx hy
      rcases hx with ⟨x1, x2⟩ | ⟨x1, x2, x3⟩ <;> rcases hy with ⟨y1, y2⟩ | ⟨y1, y2, y3⟩
      · rw [x1, y1]
      · rcases x2 with x2 | x2
        · exact absurd (hd _ _ _ y3 x2) y2
        · exact absurd (hd _ _ _ y3 x2) y1
      · rcases y2 with y2 | y2
        · exact absurd (hd _ _ _ x3 y2) x2
        · exact absurd (hd _ _ _ x3 y2) x1
      · exact hd _ _ _ x3 y3
    refine ⟨?_, ?_, key _ _ i.roots, key _ _ i.nonRoots, ?_, ?_, ?_⟩
    · have := i.eq
      simpa [absorb] using this
    · intro g
      rw [i.id]
      show (if g ∈ gs then Id.gc else upd h.id a .gc g) = _
      unfold upd
      by_cases h1 : g ∈ gs
      · simp [h1]
      · by_cases h2 : g = a
        · simp [h2]
        · simp [h1, h2]
    · intro h1 h2
      exact i.ndRoots (upd_two_nodup (Ne.symm hc.1) h1 h2) (hdis _ h2)
    · intro g h1 h2
      simp only [List.mem_cons, not_or] at h2
      rw [i.rest g h1 h2.2]
      show upd (upd h.roots c _) a [] g = _
      rw [upd_ne _ _ h2.1, upd_ne _ _ h1]
    · intro h1 h2
      exact i.ndNonRoots (upd_two_nodup (Ne.symm hc.1) h1 h2) (hdis _ h2)

end Verif.TypeHeap
