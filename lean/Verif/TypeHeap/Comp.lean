import Verif.TypeHeap.Safe
/-
What keeps an old generation alive: everything in it can be reached from its first root, unless the
next cycle collects it.
-/
namespace Verif.TypeHeap

inductive Reach (R : Obj → List Obj) (a : Obj) : Obj → Prop where
  | refl : Reach R a a
  | step {b c} : Reach R a b → c ∈ R b → Reach R a c

theorem Reach.mono {R R' : Obj → List Obj} (hR : ∀ a b, b ∈ R a → b ∈ R' a) {a b} (h : Reach R a b) : Reach R' a b := by
  induction h with
  | refl => exact .refl
  | step _ h ih => exact .step ih (hR _ _ h)

/-- Reachable from the first root of a generation. -/
def HeadReach (R : Obj → List Obj) (h : Heap) (g : GenP) (o : Obj) : Prop := ∃ r, (h.roots g).head? = some r ∧ Reach R r o

/-- The old generation an object is in or will be in. -/
def home (h : Heap) (o : Obj) : GenP := if h.I o = .mark then h.oldHead else h.gen o

/-- `x` is a root whose references are being followed. -/
def Comp (R : Obj → List Obj) (x : Option Obj) (h : Heap) : Prop :=
  ∀ o, Live h o → (h.I o = .mark ∨ ∃ n, h.I o = .num n) →
    (∃ n, h.id (home h o) = .num n ∧ NextLe h n) ∨ HeadReach R h (home h o) o ∨ (h.I o = .mark ∧ ∃ r, x = some r ∧ Reach R r o)

/-- The effect of FbleTypeAddRef. -/
structure AddEff (h : Heap) (src dst : Obj) (h' : Heap) : Prop where
  eff : (h'.gen = h.gen ∧ h'.roots = h.roots) ∨ ((h.I dst = .gc ∨ h.I dst = .save) ∧
    (∀ g, dst ∉ h.roots g → g ≠ h.mark → g ≠ h.save → h'.roots g = h.roots g) ∧
    ((h'.gen = upd h.gen dst h.mark ∧ h.I src = .mark) ∨ (h'.gen = upd h.gen dst h.save ∧ h.I src ≠ .mark)))
  quiet : h.I src = .mark → h.I dst ≠ .new → h'.next = h.next

theorem addRef_eff {x h src dst} (inv : Inv x h) (ls : Live h src) (ld : Live h dst) : AddEff h src dst (addRef h src dst) := by
  have hs := (inv.ltGen _ (inv.gens src ls)).2
  have hd := (inv.ltGen _ (inv.gens dst ld)).2
  have e0 : touchGen (touchGen (touch (touch h src) dst) ((touch (touch h src) dst).gen src)) ((touch (touch h src) dst).gen dst) = h := by
    rw [touch_eq ls.2.1, touch_eq ld.2.1, touchGen_eq hs, touchGen_eq hd]
  unfold addRef
  simp only [e0]
  have i2 : ∃ g, addRefNext h src dst = { h with next := g } ∧ (h.I src = .mark → h.I dst ≠ .new → g = h.next) := by
    obtain ⟨N, hN, _⟩ := inv.oldHead_max
    unfold addRefNext
    simp only
    split
    · rename_i hc
      refine ⟨_, rfl, fun h1 => ?_⟩
      unfold Heap.I at h1
      rw [h1, hN] at hc
      simp [Id.le, Id.lt, Id.special] at hc
    · split
      · rename_i hc
        refine ⟨_, rfl, fun _ h2 => ?_⟩
        simp only [Bool.and_eq_true, beq_iff_eq] at hc
        exact absurd hc.1.2 h2
      · exact ⟨h.next, rfl, fun _ _ => rfl⟩
  obtain ⟨nx, i2, i3⟩ := i2
  rw [i2]
  have hI : ∀ o, ({ h with next := nx } : Heap).I o = h.I o := fun _ => rfl
  -- moving
  have hmove : ∀ g, g = h.mark ∨ g = h.save → ∀ g', dst ∉ h.roots g' → g' ≠ h.mark → g' ≠ h.save →
      (if h.refcount dst = 0 then toNonRootsBack { h with next := nx, gen := upd h.gen dst g } g dst
        else toRootsBack { h with next := nx, gen := upd h.gen dst g } g dst).roots g' = h.roots g' := by
    intro g hg g' h1 h2 h3
    have hne : g' ≠ g := by rcases hg with h4 | h4 <;> rw [h4] <;> assumption
    split
    · show (h.roots g').filter (· ≠ dst) = _
      exact filter_ne h1
    · show upd (fun g => (h.roots g).filter (· ≠ dst)) g _ g' = _
      rw [upd_ne _ _ hne]
      exact filter_ne h1
  have hgen : ∀ g, (if h.refcount dst = 0 then toNonRootsBack { h with next := nx, gen := upd h.gen dst g } g dst
        else toRootsBack { h with next := nx, gen := upd h.gen dst g } g dst).gen = upd h.gen dst g := by
    intro g; split <;> rfl
  have hnext : ∀ g, (if h.refcount dst = 0 then toNonRootsBack { h with next := nx, gen := upd h.gen dst g } g dst
        else toRootsBack { h with next := nx, gen := upd h.gen dst g } g dst).next = nx := by
    intro g; split <;> rfl
  unfold moveTo
  simp only
  by_cases c1 : h.id (h.gen dst) = .gc
  · simp only [c1, beq_self_eq_true, if_true]
    by_cases c2 : h.id (h.gen src) = .mark
    · simp only [c2, beq_self_eq_true, if_true]
      exact ⟨.inr ⟨.inl c1, hmove _ (.inl rfl), .inl ⟨hgen _, c2⟩⟩, fun h1 h2 => (hnext _).trans (i3 h1 h2)⟩
    · have c2' : (h.id (h.gen src) == Id.mark) = false := by simpa using c2
      simp only [c2', Bool.false_eq_true, if_false]
      by_cases c3 : h.id (h.gen src) = .gc
      · have c3' : (h.id (h.gen src) != Id.gc) = false := by simp [c3]
        simp only [c3', Bool.false_eq_true, if_false]
        exact ⟨.inl ⟨rfl, rfl⟩, fun h1 => absurd h1 c2⟩
      · have c3' : (h.id (h.gen src) != Id.gc) = true := by simpa using c3
        simp only [c3', if_true]
        exact ⟨.inr ⟨.inl c1, hmove _ (.inr rfl), .inr ⟨hgen _, c2⟩⟩, fun h1 => absurd h1 c2⟩
  · have c1' : (h.id (h.gen dst) == Id.gc) = false := by simpa using c1
    simp only [c1', Bool.false_eq_true, if_false]
    by_cases c2 : h.id (h.gen src) = .mark ∧ h.id (h.gen dst) = .save
    · simp only [c2.1, c2.2, beq_self_eq_true, Bool.and_self, if_true]
      exact ⟨.inr ⟨.inr c2.2, hmove _ (.inl rfl), .inl ⟨hgen _, c2.1⟩⟩, fun h1 h2 => (hnext _).trans (i3 h1 h2)⟩
    · have c2' : (h.id (h.gen src) == Id.mark && h.id (h.gen dst) == Id.save) = false := by
        simp only [Bool.and_eq_false_iff, beq_eq_false_iff_ne, ne_eq]; tauto
      simp only [c2', Bool.false_eq_true, if_false]
      exact ⟨.inl ⟨rfl, rfl⟩, fun h1 h2 => i3 h1 h2⟩

theorem Inv.old_ne {x h} (inv : Inv x h) {g} (hg : g ∈ h.old) : g ≠ h.mark ∧ g ≠ h.save ∧ g ≠ h.new ∧ g ∉ h.gcs := by
  obtain ⟨n, hn⟩ := inv.oldNum g hg
  refine ⟨?_, ?_, ?_, ?_⟩
  · rintro rfl; rw [inv.markId] at hn; cases hn
  · rintro rfl; rw [inv.saveId] at hn; cases hn
  · rintro rfl; rw [inv.newId] at hn; cases hn
  · intro h1; rw [inv.gcId g h1] at hn; cases hn

/-- An object in gc or save is not a root of an old generation. -/
theorem Inv.not_old_root {x h} (inv : Inv x h) {o g} (hx : x ≠ some o) (hi : h.I o = .gc ∨ h.I o = .save ∨ h.I o = .mark ∨ h.I o = .new) (hg : g ∈ h.old) : o ∉ h.roots g := by
  intro h1
  obtain ⟨h2, h3, _⟩ := (inv.rootsOk g o hx).mp h1
  have := inv.canon_I h3
  obtain ⟨n, hn⟩ := inv.oldNum g hg
  rw [hn] at this
  rw [this] at hi
  simp at hi

theorem home_mem {x h} (inv : Inv x h) {o} (hl : Live h o) (hi : h.I o = .mark ∨ ∃ n, h.I o = .num n) : home h o ∈ h.old := by
  unfold home
  split
  · exact inv.oldHead_mem
  · rename_i hne
    rcases hi with h1 | ⟨n, h1⟩
    · exact absurd h1 hne
    · exact inv.zone_old hl h1

theorem addRef_comp {R x y h src dst} (inv : Inv x h) (ls : Live h src) (ld : Live h dst) (hx : ∀ o, x = some o → h.I o = .mark)
    (hc : Comp R y h) (hR : dst ∈ R src) : Comp R y (addRef h src dst) := by
  have e := addRef_eff inv ls ld
  obtain ⟨_, s, _⟩ := addRef_ok inv ls ld hx
  generalize addRef h src dst = h' at e s
  have hroots : ∀ g ∈ h.old, h'.roots g = h.roots g := by
    intro g hg
    have hne := inv.old_ne hg
    rcases e.eff with ⟨_, h1⟩ | ⟨h1, h2, _⟩
    · rw [h1]
    · refine h2 g (inv.not_old_root ?_ (by tauto) hg) hne.1 hne.2.1
      intro h2
      have := hx _ h2
      rw [this] at h1; simp at h1
  have hI : ∀ o, h'.gen o = h.gen o → h'.I o = h.I o := fun o h1 => by unfold Heap.I; rw [s.id, h1]
  -- an object that stays
  have hstay : ∀ o, Live h o → h'.gen o = h.gen o → (h'.I o = .mark ∨ ∃ n, h'.I o = .num n) →
      (∃ n, h'.id (home h' o) = .num n ∧ NextLe h' n) ∨ HeadReach R h' (home h' o) o ∨ (h'.I o = .mark ∧ ∃ r, y = some r ∧ Reach R r o) := by
    intro o ho hg hi
    rw [hI o hg] at hi ⊢
    have hh : home h' o = home h o := by unfold home; rw [hI o hg, s.oldHead, hg]
    rw [hh, s.id]
    have hm := home_mem inv ho hi
    rcases hc o ho hi with ⟨n, h1, h2⟩ | ⟨r, h1, h2⟩ | h1
    · exact .inl ⟨n, h1, s.next n h2⟩
    · exact .inr (.inl ⟨r, by rw [hroots _ hm]; exact h1, h2⟩)
    · exact .inr (.inr h1)
  intro o ho hi
  rw [s.live] at ho
  by_cases hg : h'.gen o = h.gen o
  · exact hstay o ho hg hi
  · rcases e.eff with ⟨h1, _⟩ | ⟨h1, h2, h3 | h3⟩
    · rw [h1] at hg; exact absurd rfl hg
    · obtain ⟨h3, h4⟩ := h3
      have hod : o = dst := by
        by_contra hne
        rw [h3, upd_ne _ _ hne] at hg
        exact hg rfl
      subst hod
      have hIo : h'.I o = .mark := by unfold Heap.I; rw [s.id, h3, upd_eq]; exact inv.markId
      have hh : home h' o = h.oldHead := by unfold home; rw [hIo, if_pos rfl, s.oldHead]
      have hs : home h src = h.oldHead := by unfold home; rw [h4, if_pos rfl]
      have := hc src ls (.inl h4)
      rw [hs] at this
      rw [hh, s.id]
      rcases this with ⟨n, h5, h6⟩ | ⟨r, h5, h6⟩ | ⟨_, r, h5, h6⟩
      · exact .inl ⟨n, h5, s.next n h6⟩
      · exact .inr (.inl ⟨r, by rw [hroots _ inv.oldHead_mem]; exact h5, h6.step hR⟩)
      · exact .inr (.inr ⟨hIo, r, h5, h6.step hR⟩)
    · obtain ⟨h3, h4⟩ := h3
      have hod : o = dst := by
        by_contra hne
        rw [h3, upd_ne _ _ hne] at hg
        exact hg rfl
      subst hod
      have hIo : h'.I o = .save := by unfold Heap.I; rw [s.id, h3, upd_eq]; exact inv.saveId
      rw [hIo] at hi
      simp at hi

theorem foldRefs_comp {R x y src} (ps : List Obj) : ∀ {h}, Inv x h → Live h src → (∀ p ∈ ps, Live h p) → (∀ o, x = some o → h.I o = .mark) →
    Comp R y h → (∀ p ∈ ps, p ∈ R src) → Comp R y (ps.foldl (fun h p => addRef h src p) h) := by
  induction ps with
  | nil => intro h _ _ _ _ hc _; exact hc
  | cons p ps ih =>
    intro h inv ls hl hx hc hR
    have c1 := addRef_comp inv ls (hl p (by simp)) hx hc (hR p (by simp))
    obtain ⟨i1, s1, _⟩ := addRef_ok inv ls (hl p (by simp)) hx
    rw [List.foldl_cons]
    refine ih i1 ((s1.live _).mpr ls) (fun q hq => (s1.live _).mpr (hl q (List.mem_cons_of_mem _ hq))) ?_ c1 (fun q hq => hR q (List.mem_cons_of_mem _ hq))
    intro o ho
    have := hx o ho
    rw [s1.keepI (by rw [this]; simp) (by rw [this]; simp)]; exact this

theorem typeRefs_comp {x y h src} (inv : Inv x h) (ls : Live h src) (hx : ∀ o, x = some o → h.I o = .mark) (hc : Comp h.refs y h) :
    Comp h.refs y (typeRefs h src) := by
  unfold typeRefs
  rw [touch_eq ls.2.1]
  exact foldRefs_comp _ inv ls (inv.refsLive src ls) hx hc (fun p hp => hp)

theorem head_back {l : List Obj} {o r : Obj} (h : l.head? = some r) : (l ++ [o]).head? = some r := by
  cases l with
  | nil => simp at h
  | cons a l => simpa using h

/-- What is needed of a heap whose lists of roots of old generations only grew at the end. -/
theorem Comp.settle {x h h' o} (inv : Inv x h) (hl : Live h o) (hx : ∀ p, x = some p → p = o) (hi : h.I o = .mark) (hc : Comp h.refs none h)
    (hm : Moved h h' o h.oldHead) (hr : ∀ g, h'.roots g = (h.roots g).filter (· ≠ o) ∨ h'.roots g = (h.roots g).filter (· ≠ o) ++ [o])
    (hoo : ∀ g ∈ h.old, o ∉ h.roots g) : Comp h.refs none h' := by
  obtain ⟨N, hN, _⟩ := inv.oldHead_max
  have hhead : ∀ g ∈ h.old, ∀ r, (h.roots g).head? = some r → (h'.roots g).head? = some r := by
    intro g hg r h1
    rcases hr g with h2 | h2
    · rw [h2, filter_ne (hoo g hg)]; exact h1
    · rw [h2, filter_ne (hoo g hg)]; exact head_back h1
  intro p hp hpi
  rw [hm.live hl] at hp
  have hIo : h'.I o = .num N := by rw [hm.I, if_pos rfl]; exact hN
  have hhome : home h' p = home h p := by
    by_cases hpo : p = o
    · subst hpo
      unfold home
      rw [hIo, hi]
      simp only [reduceCtorEq, if_false, if_true]
      rw [hm.gen, upd_eq]
    · unfold home
      rw [hm.I, if_neg hpo, hm.oldHead, hm.gen, upd_ne _ _ hpo]
  have hpi' : h.I p = .mark ∨ ∃ n, h.I p = .num n := by
    by_cases hpo : p = o
    · subst hpo; exact .inl hi
    · rw [hm.I, if_neg hpo] at hpi; exact hpi
  have hmem := home_mem inv hp hpi'
  rw [hhome, hm.id]
  rcases hc p hp hpi' with ⟨n, h1, h2⟩ | ⟨r, h1, h2⟩ | ⟨_, r, h1, _⟩
  · exact .inl ⟨n, h1, (hm.nextLe n).mpr h2⟩
  · exact .inr (.inl ⟨r, hhead _ hmem r h1, h2⟩)
  · cases h1

end Verif.TypeHeap
