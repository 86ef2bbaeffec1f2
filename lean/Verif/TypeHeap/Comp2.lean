import Verif.TypeHeap.Comp
/-
Every operation keeps what keeps old generations alive.
-/
namespace Verif.TypeHeap

theorem addRef_roots {x h src dst} (inv : Inv x h) (ls : Live h src) (ld : Live h dst) (hx : ∀ o, x = some o → h.I o = .mark) :
    ∀ g ∈ h.old, (addRef h src dst).roots g = h.roots g := by
  have e := addRef_eff inv ls ld
  intro g hg
  have hne := inv.old_ne hg
  rcases e.eff with ⟨_, h1⟩ | ⟨h1, h2, _⟩
  · rw [h1]
  · refine h2 g (inv.not_old_root ?_ (by tauto) hg) hne.1 hne.2.1
    intro h2
    have := hx _ h2
    rw [this] at h1; simp at h1

theorem foldRefs_roots {x src} (ps : List Obj) : ∀ {h}, Inv x h → Live h src → (∀ p ∈ ps, Live h p) → (∀ o, x = some o → h.I o = .mark) →
    ∀ g ∈ h.old, (ps.foldl (fun h p => addRef h src p) h).roots g = h.roots g := by
  induction ps with
  | nil => intro h _ _ _ _ g _; rfl
  | cons p ps ih =>
    intro h inv ls hl hx g hg
    obtain ⟨i1, s1, _⟩ := addRef_ok inv ls (hl p (by simp)) hx
    rw [List.foldl_cons]
    have := ih i1 ((s1.live _).mpr ls) (fun q hq => (s1.live _).mpr (hl q (List.mem_cons_of_mem _ hq))) (by
      intro o ho
      have := hx o ho
      rw [s1.keepI (by rw [this]; simp) (by rw [this]; simp)]; exact this) g (by rw [s1.old]; exact hg)
    rw [this]
    exact addRef_roots inv ls (hl p (by simp)) hx g hg

theorem typeRefs_roots {x h src} (inv : Inv x h) (ls : Live h src) (hx : ∀ o, x = some o → h.I o = .mark) :
    ∀ g ∈ h.old, (typeRefs h src).roots g = h.roots g := by
  unfold typeRefs
  rw [touch_eq ls.2.1]
  exact foldRefs_roots _ inv ls (inv.refsLive src ls) hx

theorem Comp.of {R R' x h h'} (hc : Comp R none h) (hR : ∀ a b, b ∈ R a → b ∈ R' a)
    (key : ∀ p, Live h' p → (h'.I p = .mark ∨ ∃ n, h'.I p = .num n) → Live h p ∧ (h.I p = .mark ∨ ∃ n, h.I p = .num n) ∧
      home h' p = home h p ∧ (∀ n, h.id (home h p) = .num n → h'.id (home h p) = .num n ∧ (NextLe h n → NextLe h' n)) ∧
      (∀ r, (h.roots (home h p)).head? = some r → (h'.roots (home h p)).head? = some r ∨
        ∃ n, h'.id (home h p) = .num n ∧ NextLe h' n)) : Comp R' x h' := by
  intro p hp hi
  obtain ⟨k1, k2, k3, k4, k5⟩ := key p hp hi
  rw [k3]
  rcases hc p k1 k2 with ⟨n, h1, h2⟩ | ⟨r, h1, h2⟩ | ⟨_, r, h1, _⟩
  · exact .inl ⟨n, (k4 n h1).1, (k4 n h1).2 h2⟩
  · rcases k5 r h1 with h3 | h3
    · exact .inr (.inl ⟨r, h3, h2.mono hR⟩)
    · exact .inl h3
  · cases h1

theorem markStep_comp {h o h'} (inv : Inv none h) (hl : Live h o) (hi : h.I o = .mark) (hc : Comp h.refs none h)
    (hm : Moved (typeRefs h o) h' o h.oldHead)
    (hr : ∀ g, h'.roots g = ((typeRefs h o).roots g).filter (· ≠ o) ∨ h'.roots g = ((typeRefs h o).roots g).filter (· ≠ o) ++ [o]) :
    Comp h'.refs none h' := by
  obtain ⟨i1, s1, s2, s3, s4⟩ := typeRefs_ok inv hl (by simp)
  have c1 := typeRefs_comp inv hl (by simp) hc
  have hl' : Live (typeRefs h o) o := (s1.live o).mpr hl
  rw [hm.refs]
  rw [← s1.refs] at c1
  refine Comp.settle i1 hl' (by simp) (s2.trans hi) c1 (by rw [s1.oldHead]; exact hm) hr ?_
  intro g hg
  exact i1.not_old_root (by simp) (by rw [s2, hi]; simp) hg

theorem rootStep_comp {h o h'} (inv : Inv none h) (hl : Live h o) (hi : h.I o = .gc ∨ h.I o = .save) (hc : Comp h.refs none h)
    (hmark : ∀ o, Live h o → h.I o ≠ .mark) (he : ∀ p, Live h p → h.gen p ≠ h.oldHead)
    (hm : Moved (typeRefs { h with gen := upd h.gen o h.mark } o) h' o h.oldHead)
    (hr : ∀ g, h'.roots g = if g = h.oldHead then o :: ((typeRefs { h with gen := upd h.gen o h.mark } o).roots g).filter (· ≠ o)
      else ((typeRefs { h with gen := upd h.gen o h.mark } o).roots g).filter (· ≠ o)) : Comp h'.refs none h' := by
  have i0 := toMark_ok inv hl hi
  have hIo : ({ h with gen := upd h.gen o h.mark } : Heap).I o = .mark := by
    show h.id (upd h.gen o h.mark o) = .mark
    rw [upd_eq, inv.markId]
  have hIp : ∀ p, p ≠ o → ({ h with gen := upd h.gen o h.mark } : Heap).I p = h.I p := by
    intro p hp
    show h.id (upd h.gen o h.mark p) = _
    rw [upd_ne _ _ hp]; rfl
  have c0 : Comp h.refs (some o) { h with gen := upd h.gen o h.mark } := by
    intro p hp hpi
    by_cases hpo : p = o
    · subst hpo; exact .inr (.inr ⟨hIo, p, rfl, .refl⟩)
    · rw [hIp p hpo] at hpi
      have hh : home ({ h with gen := upd h.gen o h.mark } : Heap) p = home h p := by
        unfold home
        rw [hIp p hpo]
        show (if h.I p = .mark then h.oldHead else upd h.gen o h.mark p) = _
        rw [upd_ne _ _ hpo]
      rw [hh]
      rcases hc p hp hpi with h1 | h1 | ⟨h1, _⟩
      · exact .inl h1
      · exact .inr (.inl h1)
      · exact absurd h1 (hmark p hp)
  have hx : ∀ p, some o = some p → ({ h with gen := upd h.gen o h.mark } : Heap).I p = .mark := by
    intro p hp; injection hp with hp; subst hp; exact hIo
  have c1 := typeRefs_comp i0 hl hx c0
  obtain ⟨i1, s1, s2, s3, s4⟩ := typeRefs_ok i0 hl hx
  have hroots := typeRefs_roots i0 hl hx
  have hl' : Live (typeRefs { h with gen := upd h.gen o h.mark } o) o := (s1.live o).mpr hl
  -- nothing is in the youngest old generation
  have he' : ∀ p, Live (typeRefs { h with gen := upd h.gen o h.mark } o) p → (typeRefs { h with gen := upd h.gen o h.mark } o).gen p ≠ h.oldHead := by
    intro p hp h1
    have hp0 : Live h p := (s1.live p).mp hp
    have hold := inv.old_ne inv.oldHead_mem
    rcases s1.zone p with h2 | ⟨_, h2 | h2⟩ | ⟨_, h2⟩
    · rw [h2] at h1
      have h1 : upd h.gen o h.mark p = h.oldHead := h1
      by_cases hpo : p = o
      · rw [hpo, upd_eq] at h1; exact hold.1 h1.symm
      · rw [upd_ne _ _ hpo] at h1; exact he p hp0 h1
    · exact hold.1 (h1.symm.trans h2)
    · exact hold.2.1 (h1.symm.trans h2)
    · exact hold.1 (h1.symm.trans h2)
  have hre : h.roots h.oldHead = [] := by
    apply List.eq_nil_iff_forall_not_mem.mpr
    intro p hp
    obtain ⟨h1, h2, _⟩ := (inv.rootsOk _ p (by simp)).mp hp
    obtain ⟨n, hn⟩ := inv.oldNum _ inv.oldHead_mem
    have hI := inv.canon_I h2
    apply he p h1
    unfold canon at h2
    unfold Heap.I at hI
    rw [hI, hn] at h2
    simpa using h2
  have sold : (typeRefs { h with gen := upd h.gen o h.mark } o).oldHead = h.oldHead := s1.oldHead
  have hre' := (hroots h.oldHead inv.oldHead_mem).trans hre
  have hoo : ∀ g ∈ h.old, o ∉ h.roots g := fun g hg => inv.not_old_root (by simp) (by tauto) hg
  have hroots' : ∀ g ∈ h.old, (typeRefs { h with gen := upd h.gen o h.mark } o).roots g = h.roots g := hroots
  have sid : (typeRefs { h with gen := upd h.gen o h.mark } o).id = h.id := s1.id
  have srefs : (typeRefs { h with gen := upd h.gen o h.mark } o).refs = h.refs := s1.refs
  have sgo : (typeRefs { h with gen := upd h.gen o h.mark } o).I o = .mark := s2.trans hIo
  have sold2 : (typeRefs { h with gen := upd h.gen o h.mark } o).old = h.old := s1.old
  clear s1 s2 s3 s4 c0 hroots
  generalize typeRefs { h with gen := upd h.gen o h.mark } o = k at *
  obtain ⟨N, hN, _⟩ := inv.oldHead_max
  intro p hp hpi
  rw [hm.live hl'] at hp
  have hhead : (h'.roots h.oldHead).head? = some o := by rw [hr, if_pos rfl]; rfl
  rw [hm.refs, srefs, hm.id, sid]
  by_cases hpo : p = o
  · subst hpo
    have : home h' p = h.oldHead := by
      unfold home
      rw [hm.I, if_pos rfl, sid, hN]
      simp only [reduceCtorEq, if_false]
      rw [hm.gen, upd_eq]
    rw [this]
    exact .inr (.inl ⟨p, hhead, .refl⟩)
  · have hIp' : h'.I p = k.I p := by rw [hm.I, if_neg hpo]
    have hh : home h' p = home k p := by
      unfold home; rw [hIp', hm.oldHead, hm.gen, upd_ne _ _ hpo]
    rw [hIp'] at hpi ⊢
    rw [hh]
    rcases c1 p hp hpi with ⟨n, h1, h2⟩ | ⟨r, h1, h2⟩ | ⟨h1, r, h2, h3⟩
    · rw [sid] at h1
      exact .inl ⟨n, h1, (hm.nextLe n).mpr h2⟩
    · have hmem := home_mem i1 hp hpi
      rw [sold2] at hmem
      by_cases hhome : home k p = h.oldHead
      · rw [hhome, hre'] at h1; simp at h1
      · refine .inr (.inl ⟨r, ?_, h2⟩)
        rw [hr, if_neg hhome, filter_ne]
        · exact h1
        · rw [hroots' _ hmem]; exact hoo _ hmem
    · injection h2 with h2
      subst h2
      have hhome : home k p = h.oldHead := by unfold home; rw [h1, if_pos rfl]; exact sold
      rw [hhome]
      exact .inr (.inl ⟨o, hhead, h3⟩)

theorem saveStep_comp {h o h'} (inv : Inv none h) (hl : Live h o) (hi : h.I o = .save) (hc : Comp h.refs none h)
    (hm : Moved (typeRefs h o) h' o h.new) (hr : ∀ g, h'.roots g = ((typeRefs h o).roots g).filter (· ≠ o)) :
    Comp h'.refs none h' := by
  obtain ⟨i1, s1, s2, s3, s4⟩ := typeRefs_ok inv hl (by simp)
  have c1 := typeRefs_comp inv hl (by simp) hc
  have hl' : Live (typeRefs h o) o := (s1.live o).mpr hl
  rw [← s1.refs] at c1
  have hnew : (typeRefs h o).id h.new = .new := by rw [s1.id]; exact inv.newId
  refine Comp.of c1 (by rw [hm.refs]; exact fun _ _ h => h) ?_
  intro p hp hpi
  rw [hm.live hl'] at hp
  have hpo : p ≠ o := by
    rintro rfl
    rw [hm.I, if_pos rfl, hnew] at hpi
    simp at hpi
  rw [hm.I, if_neg hpo] at hpi
  have hh : home h' p = home (typeRefs h o) p := by
    unfold home; rw [hm.I, if_neg hpo, hm.oldHead, hm.gen, upd_ne _ _ hpo]
  refine ⟨hp, hpi, hh, fun n hn => ⟨by rw [hm.id]; exact hn, (hm.nextLe n).mpr⟩, fun r h1 => .inl ?_⟩
  rw [hr, filter_ne]
  · exact h1
  · exact i1.not_old_root (by simp) (by rw [s2, hi]; simp) (home_mem i1 hp hpi)

theorem freeFirst_comp {h} (inv : Inv none h) (hc : Comp h.refs none h) : Comp (freeFirst h).refs none (freeFirst h) := by
  have hl := (freeFirst_ok inv).2
  unfold freeFirst at *
  cases hf : h.free with
  | nil => exact hc
  | cons o rest =>
    rw [hf] at hl
    simp only at hl ⊢
    have hnl : ¬ Live h o := fun h1 => h1.2.2 (by rw [hf]; simp)
    refine Comp.of hc (fun _ _ h => h) fun p hp hpi => ⟨(hl p).mp hp, hpi, rfl, fun n hn => ⟨hn, fun h => h⟩, fun r h1 => .inl ?_⟩
    show ((h.roots (home h p)).filter (· ≠ o)).head? = some r
    rw [filter_ne (inv.not_root (by simp) hnl _).1]
    exact h1

theorem startOld_comp {h} (inv : Inv none h) (hm : ∀ o, Live h o → h.I o ≠ .mark) (hc : Comp h.refs none h) :
    Comp (startOld h).refs none (startOld h) := by
  rcases startOld_cases h with ⟨h1, _⟩ | h1
  · rw [h1]; exact hc
  · obtain ⟨m, h1⟩ : ∃ m, startOld h = { newGen h (.num m) with old := h.nextGen :: h.old } := ⟨_, h1⟩
    have e1 : (startOld h).id = upd h.id h.nextGen (.num m) := by rw [h1]; rfl
    have e2 : (startOld h).roots = upd h.roots h.nextGen [] := by rw [h1]; rfl
    have e3 : (startOld h).gen = h.gen := by rw [h1]; rfl
    have e4 : (startOld h).next = h.next := by rw [h1]; rfl
    have e5 : (startOld h).refs = h.refs := by rw [h1]; rfl
    have hl := (startOld_ok inv hm).2
    have hlt : ∀ g, (g ∈ h.old ∨ g ∈ h.gcs ∨ g = h.mark ∨ g = h.save ∨ g = h.new) → g ≠ h.nextGen := by
      intro g hg he
      have := (inv.ltGen g hg).1
      rw [he] at this
      exact Nat.lt_irrefl _ this
    have hid : ∀ g, g ≠ h.nextGen → (startOld h).id g = h.id g := fun g hg => by rw [e1, upd_ne _ _ hg]
    have hI : ∀ o, Live h o → (startOld h).I o = h.I o := by
      intro o ho
      unfold Heap.I
      rw [e3]
      exact hid _ (hlt _ (inv.gens o ho))
    refine Comp.of hc (by rw [e5]; exact fun _ _ h => h) fun p hp hpi => ?_
    rw [hl] at hp
    rw [hI p hp] at hpi
    have hpm := hm p hp
    have hh : home h p = h.gen p := by unfold home; rw [if_neg hpm]
    have hg := hlt _ (inv.gens p hp)
    rw [hh]
    refine ⟨hp, hpi, ?_, ?_, ?_⟩
    · unfold home; rw [hI p hp, if_neg hpm, e3]
    · intro n hn
      refine ⟨(hid _ hg).trans hn, ?_⟩
      rintro ⟨k, h2, h3⟩
      refine ⟨k, ?_, h3⟩
      rw [e4, hid]
      · exact h2
      rcases inv.next with h4 | h4
      · exact hlt _ (.inr (.inr (.inr (.inr h4))))
      · exact hlt _ (.inl h4)
    · intro r h2
      left
      rw [e2, upd_ne _ _ hg]; exact h2

theorem startOld_empty {h} (inv : Inv none h) (hm : ∀ o, Live h o → h.I o ≠ .mark) : ∀ p, Live (startOld h) p → (startOld h).gen p ≠ (startOld h).oldHead := by
  rcases startOld_cases h with ⟨h1, h2, h3⟩ | h1
  · rw [h1]
    intro p hp hg
    obtain ⟨n, hn⟩ := inv.oldNum _ inv.oldHead_mem
    have hc : canon h (h.gen p) = h.oldHead := by unfold canon; rw [hg, hn]; simp
    by_cases hr : h.refcount p = 0
    · have := (inv.nonRootsOk _ p (by simp)).mpr ⟨hp, hc, hr⟩
      rw [h3] at this; simp at this
    · have := (inv.rootsOk _ p (by simp)).mpr ⟨hp, hc, Nat.pos_of_ne_zero hr⟩
      rw [h2] at this; simp at this
  · intro p hp hg
    rw [(startOld_ok inv hm).2] at hp
    have e1 : (startOld h).oldHead = h.nextGen := by rw [h1]; rfl
    have e3 : (startOld h).gen = h.gen := by rw [h1]; rfl
    rw [e1, e3] at hg
    have := (inv.ltGen _ (inv.gens p hp)).1
    rw [hg] at this
    exact Nat.lt_irrefl _ this

/-- Objects left by the end of a cycle. -/
theorem endCycle_zone {h : Heap} (inv : Inv none h) (hmark : ∀ o, Live h o → h.I o ≠ .mark) (hsave : ∀ o, Live h o → h.I o ≠ .save)
    {A B} (sAB : A ++ B = h.new :: h.old) {o} (hl : Live h o) (hgc : h.I o ≠ .gc) : h.gen o ∈ A ∨ h.gen o ∈ B := by
  have : h.gen o ∈ h.new :: h.old := by
    rcases inv.gens o hl with h3 | h3 | h3 | h3 | h3
    · exact List.mem_cons_of_mem _ h3
    · exact absurd (inv.gcId _ h3) hgc
    · exact absurd (by unfold Heap.I; rw [h3]; exact inv.markId) (hmark o hl)
    · exact absurd (by unfold Heap.I; rw [h3]; exact inv.saveId) (hsave o hl)
    · rw [h3]; simp
  rw [← sAB] at this
  exact List.mem_append.mp this

theorem endCycle_comp {h : Heap} (inv : Inv none h) (hmark : ∀ o, Live h o → h.I o ≠ .mark) (hsave : ∀ o, Live h o → h.I o ≠ .save)
    (hroots : h.roots h.gcHead = []) (hc : Comp h.refs none h) : Comp (endCycle h).refs none (endCycle h) := by
  obtain ⟨A, B, sAB, ⟨pre, hpre⟩, hhead, e⟩ := endCycle_char inv
  have hlive := (endCycle_ok inv hmark hsave hroots).2
  generalize endCycle h = h' at e hlive
  have hnd := inv.genList
  have inB : ∀ g ∈ B, g ∈ h.new :: h.old := fun g hg => by rw [← sAB]; exact List.mem_append_right _ hg
  have inA : ∀ g ∈ A, g ∈ h.new :: h.old := fun g hg => by rw [← sAB]; exact List.mem_append_left _ hg
  rw [← sAB] at hnd
  have hdisj : ∀ g ∈ B, g ∉ A := fun g hb ha => (List.nodup_append.mp hnd).2.2 g ha g hb rfl
  have hnewA : h.new ∈ A := List.mem_of_mem_head? hhead
  have hlt : ∀ g ∈ h.new :: h.old, g < h.nextGen := by
    intro g hg
    rcases List.mem_cons.mp hg with h1 | h1
    · exact (inv.ltGen _ (.inr (.inr (.inr (.inr h1))))).1
    · exact (inv.ltGen _ (.inl h1)).1
  have hnextA : h.next ∈ A := by rw [hpre]; simp
  have hord : ∀ a ∈ A, ∀ b ∈ B, a ∈ h.old → (h.id b).lt (h.id a) = true := by
    intro a ha b hb hold
    have hp : (h.new :: h.old).Pairwise fun a b => a ∈ h.old → (h.id b).lt (h.id a) = true := by
      refine List.pairwise_cons.mpr ⟨fun b hb h1 => ?_, inv.oldDec.imp (S := fun a b => a ∈ h.old → (h.id b).lt (h.id a) = true) (fun {a b} h1 _ => h1)⟩
      obtain ⟨n, hn⟩ := inv.oldNum _ h1
      rw [inv.newId] at hn; cases hn
    rw [← sAB] at hp
    exact (List.pairwise_append.mp hp).2.2 a ha b hb hold
  refine Comp.of hc (by rw [e.refs]; exact fun _ _ h => h) fun p hp hpi => ?_
  obtain ⟨hp1, hp2⟩ := (hlive p).mp hp
  rcases endCycle_zone inv hmark hsave sAB hp1 hp2 with h1 | h1
  · have hI : h'.I p = .gc := by unfold Heap.I; rw [e.gen, e.id _ (hlt _ (inA _ h1)), if_pos h1]
    rw [hI] at hpi
    simp at hpi
  · have hI : h'.I p = h.I p := by unfold Heap.I; rw [e.gen, e.id _ (hlt _ (inB _ h1)), if_neg (hdisj _ h1)]
    have hpm := hmark p hp1
    have hh : home h p = h.gen p := by unfold home; rw [if_neg hpm]
    rw [hI] at hpi
    rw [hh]
    refine ⟨hp1, hpi, ?_, fun n hn => ⟨?_, ?_⟩, fun r h2 => .inl ?_⟩
    · unfold home; rw [hI, if_neg hpm, e.gen]
    · rw [e.id _ (hlt _ (inB _ h1)), if_neg (hdisj _ h1)]; exact hn
    · rintro ⟨m, hm, hmn⟩
      exfalso
      rcases inv.next with h3 | h3
      · rw [h3, inv.newId] at hm; cases hm
      · have := hord _ hnextA _ h1 h3
        rw [hm, hn, Id.lt_num] at this
        omega
    · rw [e.rest _ (fun h3 => hdisj _ h1 (by rw [h3]; exact hnewA)) (hdisj _ h1)]; exact h2

/-! ### The operations -/

theorem incrGc3_comp {h : Heap} (inv : Inv none h) (hmark : ∀ o, Live h o → h.I o ≠ .mark) (he : ∀ p, Live h p → h.gen p ≠ h.oldHead)
    (hc : Comp h.refs none h) : Comp (incrGc3 h).1.refs none (incrGc3 h).1 := by
  have rootCase : ∀ o, Live h o → 0 < h.refcount o → (h.I o = .gc ∨ h.I o = .save) →
      Comp (toRootsFront { typeRefs { h with gen := upd h.gen o h.mark } o with gen := upd (typeRefs { h with gen := upd h.gen o h.mark } o).gen o (typeRefs { h with gen := upd h.gen o h.mark } o).oldHead }
        (typeRefs { h with gen := upd h.gen o h.mark } o).oldHead o).refs none
        (toRootsFront { typeRefs { h with gen := upd h.gen o h.mark } o with gen := upd (typeRefs { h with gen := upd h.gen o h.mark } o).gen o (typeRefs { h with gen := upd h.gen o h.mark } o).oldHead }
        (typeRefs { h with gen := upd h.gen o h.mark } o).oldHead o) := by
    intro o hl hr hi
    have i1 := toMark_ok inv hl hi
    have hst := typeRefs_same i1 hl (by
      intro p hp
      injection hp with hp
      subst hp
      show h.id (upd h.gen o h.mark o) = .mark
      rw [upd_eq, inv.markId])
    have hold : (typeRefs { h with gen := upd h.gen o h.mark } o).oldHead = h.oldHead := hst.oldHead
    have hm := markRootsFront (h := typeRefs { h with gen := upd h.gen o h.mark } o) (o := o) (g := h.oldHead)
      (by rw [hst.refcount]; exact hr) hst.oldHead.symm
    refine rootStep_comp inv hl hi hc hmark he hm fun g => ?_
    simp only [toRootsFront, unlink, upd]
    rw [hold]
    split
    · rename_i h1; subst h1; rfl
    · rfl
  unfold incrGc3
  split
  · rename_i o l hl
    obtain ⟨h1, h2, h3⟩ := inv.of_root (o := o) (g := h.gcHead) (by rw [hl]; simp)
    rw [inv.gcId _ inv.gcHead_mem] at h2
    exact rootCase o h1 h3 (.inl h2)
  · rename_i hgc
    split
    · rename_i o l hl
      obtain ⟨h1, h2, h3⟩ := inv.of_root (o := o) (g := h.save) (by rw [hl]; simp)
      rw [inv.saveId] at h2
      exact rootCase o h1 h3 (.inr h2)
    · rename_i hsr
      split
      · rename_i o l hl
        obtain ⟨h1, h2, h3⟩ := inv.of_nonRoot (o := o) (g := h.save) (by rw [hl]; simp)
        rw [inv.saveId] at h2
        have hst := typeRefs_same inv h1 (by simp)
        have hm : Moved (typeRefs h o) (toNonRootsFront { typeRefs h o with gen := upd (typeRefs h o).gen o (typeRefs h o).new }
            (typeRefs h o).new o) o (typeRefs h o).new := moved_nonRootsFront (by rw [hst.refcount]; exact h3)
        exact saveStep_comp inv h1 h2 hc (by rw [← hst.new]; exact hm) (fun g => rfl)
      · rename_i hsn
        exact endCycle_comp inv hmark (inv.noSave hsn hsr) hgc hc

theorem startOld_noMark {h} (inv : Inv none h) (hnm : ∀ o, Live h o → h.I o ≠ .mark) :
    ∀ o, Live (startOld h) o → (startOld h).I o ≠ .mark := by
  have s := startOld_good inv hnm
  intro o ho hi
  have hg := s.inv.zone_mark ho hi
  apply hnm o (s.live o ho)
  have : (startOld h).gen o = h.gen o := by unfold startOld; split <;> rfl
  rw [this, (startOld_same h).1] at hg
  unfold Heap.I
  rw [hg]; exact inv.markId

theorem incrGc2_comp {h : Heap} (inv : Inv none h) (hc : Comp h.refs none h) : Comp (incrGc2 h).1.refs none (incrGc2 h).1 := by
  unfold incrGc2
  split
  · rename_i o l hl
    obtain ⟨h1, h2, h3⟩ := inv.of_nonRoot (o := o) (g := h.mark) (by rw [hl]; simp)
    rw [inv.markId] at h2
    have hst := typeRefs_same inv h1 (by simp)
    have hm : Moved (typeRefs h o) (toNonRootsBack { typeRefs h o with gen := upd (typeRefs h o).gen o (typeRefs h o).oldHead }
        (typeRefs h o).oldHead o) o (typeRefs h o).oldHead := moved_nonRootsBack (by rw [hst.refcount]; exact h3)
    exact markStep_comp inv h1 h2 hc (by rw [← hst.oldHead]; exact hm) (fun g => .inl rfl)
  · rename_i hn
    split
    · rename_i o l hl
      obtain ⟨h1, h2, h3⟩ := inv.of_root (o := o) (g := h.mark) (by rw [hl]; simp)
      rw [inv.markId] at h2
      have hst := typeRefs_same inv h1 (by simp)
      have hm : Moved (typeRefs h o) (toRootsBack { typeRefs h o with gen := upd (typeRefs h o).gen o (typeRefs h o).oldHead }
          (typeRefs h o).oldHead o) o (typeRefs h o).oldHead := moved_rootsBack (by rw [hst.refcount]; exact h3)
      refine markStep_comp inv h1 h2 hc (by rw [← hst.oldHead]; exact hm) (fun g => ?_)
      show upd (fun g => ((typeRefs h o).roots g).filter (· ≠ o)) _ _ g = _ ∨ upd (fun g => ((typeRefs h o).roots g).filter (· ≠ o)) _ _ g = _
      unfold upd
      split
      · rename_i h4; subst h4; exact .inr rfl
      · exact .inl rfl
    · rename_i hr
      have hnm := inv.noMark hn hr
      have s := startOld_good inv hnm
      exact incrGc3_comp s.inv (startOld_noMark inv hnm) (startOld_empty inv hnm) (startOld_comp inv hnm hc)

theorem incrGc_comp {h : Heap} (inv : Inv none h) (hc : Comp h.refs none h) : Comp (incrGc h).1.refs none (incrGc h).1 := by
  have g1 := freeFirst_good inv
  have g2 := freeFirst_good g1.inv
  exact incrGc2_comp g2.inv (freeFirst_comp g1.inv (freeFirst_comp inv hc))

theorem newHeap_comp : Comp newHeap.refs none newHeap := by
  intro o ho
  exact absurd ho.1 (Nat.not_lt_zero _)

theorem alloc_comp {h : Heap} (inv : Inv none h) (hf : ∀ a, h.nextObj ≤ a → h.refs a = []) (hc : Comp h.refs none h) :
    Comp (allocType h).refs none (allocType h) := by
  have g := incrGc_good inv
  have c := incrGc_comp inv hc
  have hf' : (incrGc h).1.refs (incrGc h).1.nextObj = [] := by rw [g.same.refs, g.same.nextObj]; exact hf _ (Nat.le_refl _)
  unfold allocType
  simp only
  generalize (incrGc h).1 = k at g c hf'
  have hr : upd k.refs k.nextObj [] = k.refs := by
    funext a; unfold upd; split
    · rename_i h1; rw [h1, hf']
    · rfl
  rw [hr]
  refine Comp.of c (fun _ _ h => h) fun p hp hpi => ?_
  have hp : p < k.nextObj + 1 ∧ p ∉ k.freed ∧ p ∉ k.free := hp
  have hpi : k.id (upd k.gen k.nextObj k.new p) = .mark ∨ ∃ n, k.id (upd k.gen k.nextObj k.new p) = .num n := hpi
  have hne : p ≠ k.nextObj := by
    rintro rfl
    rw [upd_eq, g.inv.newId] at hpi
    simp at hpi
  have hl : Live k p := ⟨Nat.lt_of_le_of_ne (Nat.lt_succ_iff.mp hp.1) hne, hp.2⟩
  rw [upd_ne _ _ hne] at hpi
  have hmem := home_mem g.inv hl hpi
  refine ⟨hl, hpi, ?_, fun n hn => ⟨hn, fun h => h⟩, fun r h1 => .inl ?_⟩
  · show (if k.id (upd k.gen k.nextObj k.new p) = .mark then k.oldHead else upd k.gen k.nextObj k.new p) = _
    rw [upd_ne _ _ hne]
    rfl
  · show (upd k.roots k.new (k.nextObj :: k.roots k.new) (home k p)).head? = some r
    rw [upd_ne _ _ (g.inv.old_ne hmem).2.2.1]; exact h1

theorem Inv.of_old {h} (inv : Inv none h) {o g} (hl : Live h o) (hg : h.gen o = g) (hold : g ∈ h.old) (hr : h.refcount o = 0) : o ∉ h.roots g := by
  intro h1
  have := ((inv.rootsOk g o (by simp)).mp h1).2.2
  omega

theorem Inv.root_gen {h} (inv : Inv none h) {o g} (ho : o ∈ h.roots g) (hold : g ∈ h.old) : h.gen o = g := by
  obtain ⟨h1, h2, _⟩ := (inv.rootsOk g o (by simp)).mp ho
  have hI := inv.canon_I h2
  obtain ⟨n, hn⟩ := inv.oldNum g hold
  unfold canon at h2
  unfold Heap.I at hI
  rw [hI, hn] at h2
  simpa using h2

/-- Moving an object within its zone. -/
theorem Comp.recount {h h' : Heap} {o c g0} (inv : Inv none h) (hl : Live h o) (hc : Comp h.refs none h) (hg0 : canon h (h.gen o) = g0)
    (hm : Moved { h with refcount := upd h.refcount o c } h' o g0)
    (hr : ∀ g ∈ h.old, ∀ r, (h.roots g).head? = some r → (h'.roots g).head? = some r ∨ ∃ n, h.id g = .num n ∧ NextLe h n) :
    Comp h'.refs none h' := by
  subst hg0
  have hIo : h.id (canon h (h.gen o)) = h.I o := (inv.canon_I rfl).symm
  have hI : ∀ p, h'.I p = h.I p := by
    intro p
    rw [hm.I]
    split
    · rename_i h1; rw [h1]; exact hIo
    · rfl
  have hlive : ∀ p, Live h' p ↔ Live h p := hm.live hl
  refine Comp.of hc (by rw [hm.refs]; exact fun _ _ h => h) fun p hp hpi => ?_
  rw [hI] at hpi
  rw [hlive] at hp
  have hmem := home_mem inv hp hpi
  have hh : home h' p = home h p := by
    unfold home
    rw [hI]
    split
    · exact hm.oldHead
    · rename_i hne
      rw [hm.gen]
      unfold upd
      split
      · rename_i h1
        subst h1
        rcases hpi with h2 | ⟨n, h2⟩
        · exact absurd h2 hne
        · unfold canon; unfold Heap.I at h2; rw [h2]; simp
      · rfl
  refine ⟨hp, hpi, hh, fun n hn => ⟨by rw [hm.id]; exact hn, fun h1 => (hm.nextLe n).mpr h1⟩, fun r h1 => ?_⟩
  rcases hr _ hmem r h1 with h2 | ⟨n, h2, h3⟩
  · exact .inl h2
  · exact .inr ⟨n, by rw [hm.id]; exact h2, (hm.nextLe n).mpr h3⟩

theorem Comp.setNext {h : Heap} {g} (hc : Comp h.refs none h) (hm : ∀ n, NextLe h n → NextLe { h with next := g } n) :
    Comp h.refs none { h with next := g } :=
  Comp.of hc (fun _ _ h => h) fun p hp hpi => ⟨hp, hpi, rfl, fun n hn => ⟨hn, hm n⟩, fun r h1 => .inl h1⟩

theorem Comp.setCount {h : Heap} {c} (hc : Comp h.refs none h) : Comp h.refs none { h with refcount := c } :=
  Comp.of hc (fun _ _ h => h) fun p hp hpi => ⟨hp, hpi, rfl, fun n hn => ⟨hn, fun h => h⟩, fun r h1 => .inl h1⟩

theorem retain_comp {h : Heap} {o} (inv : Inv none h) (hl : Live h o) (hc : Comp h.refs none h) :
    Comp (retainType h o).refs none (retainType h o) := by
  unfold retainType
  rw [touch_eq hl.2.1]
  have hg : h.gen o ∉ h.freedGens := (inv.ltGen _ (inv.gens o hl)).2
  simp only
  split
  · rename_i h0
    rw [canonical_eq (h := { h with refcount := upd h.refcount o (h.refcount o + 1) }) hg]
    have hm : Moved { h with refcount := upd h.refcount o (h.refcount o + 1) }
        (toRootsBack { h with refcount := upd h.refcount o (h.refcount o + 1), gen := upd h.gen o (canon h (h.gen o)) } (canon h (h.gen o)) o)
        o (canon h (h.gen o)) :=
      moved_rootsBack (by show 0 < upd h.refcount o (h.refcount o + 1) o; rw [upd_eq]; omega)
    have hgo : upd h.gen o (canon h (h.gen o)) o = canon h (h.gen o) := upd_eq _ _ _
    have := Comp.recount inv hl hc rfl hm (by
      intro g hgm r h1
      left
      have hno : o ∉ h.roots g := by
        intro h2
        have := ((inv.rootsOk g o (by simp)).mp h2).2.2
        omega
      show (upd (fun g => (h.roots g).filter (· ≠ o)) (canon h (h.gen o)) _ g).head? = some r
      unfold upd
      split
      · rename_i h2
        rw [h2] at h1 hno
        show ((h.roots (canon h (h.gen o))).filter (· ≠ o) ++ [o]).head? = some r
        rw [filter_ne hno]
        exact head_back h1
      · show ((h.roots g).filter (· ≠ o)).head? = some r
        rw [filter_ne hno]; exact h1)
    show Comp (toRootsBack _ (upd h.gen o (canon h (h.gen o)) o) o).refs none (toRootsBack _ (upd h.gen o (canon h (h.gen o)) o) o)
    rw [hgo]
    exact this
  · exact hc.setCount

theorem head_filter {l : List Obj} {o r : Obj} (h : l.head? = some r) (hne : r ≠ o) : (l.filter (· ≠ o)).head? = some r := by
  cases l with
  | nil => simp at h
  | cons a l =>
    simp only [List.head?_cons, Option.some.injEq] at h
    subst h
    rw [List.filter_cons, if_pos (by simpa using hne)]
    rfl

/-- Moving an object within its zone when the next cycle starts elsewhere. -/
theorem release_comp {h : Heap} {o} (inv : Inv none h) (hl : Live h o) (hc : Comp h.refs none h) :
    Comp (releaseType h o).refs none (releaseType h o) := by
  unfold releaseType
  rw [touch_eq hl.2.1]
  have hg : h.gen o ∉ h.freedGens := (inv.ltGen _ (inv.gens o hl)).2
  simp only
  split
  · rename_i h0
    rw [canonical_eq (h := { h with refcount := upd h.refcount o (h.refcount o - 1) }) hg]
    simp only
    have hgo : upd h.gen o (canon h (h.gen o)) o = canon h (h.gen o) := upd_eq _ _ _
    have hcc : canon { h with refcount := upd h.refcount o (h.refcount o - 1) } (h.gen o) = canon h (h.gen o) := rfl
    rw [hcc, hgo]
    have hroots : ∀ (g r : Nat), (h.roots g).head? = some r → r ≠ o → (((h.roots g).filter (· ≠ o))).head? = some r :=
      fun g r h1 h2 => head_filter h1 h2
    obtain ⟨N, hN, hmax⟩ := inv.oldHead_max
    split
    · rename_i hcond
      simp only [Bool.and_eq_true] at hcond
      obtain ⟨⟨c1, c2⟩, _⟩ := hcond
      have c2' : (h.id (canon h (h.gen o))).le (h.id h.oldHead) = true := c2
      have c1' : (h.id (canon h (h.gen o))).lt (h.id h.next) = true := c1
      have hnum : ∃ n, h.I o = .num n := by
        rw [inv.canon_I rfl]
        cases hi : h.id (canon h (h.gen o)) with
        | num n => exact ⟨n, rfl⟩
        | _ => rw [hi, hN] at c2'; simp [Id.le, Id.lt, Id.special] at c2'
      obtain ⟨n, hn⟩ := hnum
      have hmem := inv.zone_old hl hn
      have hcg : canon h (h.gen o) = h.gen o := by
        unfold canon; unfold Heap.I at hn; rw [hn]; simp
      rw [hcg] at c1' ⊢
      have hn' : h.id (h.gen o) = .num n := hn
      have hmono : ∀ k, NextLe h k → NextLe { h with next := h.gen o } k := by
        rintro k ⟨m, hm, hk⟩
        refine ⟨n, hn', ?_⟩
        rw [hn', hm, Id.lt_num] at c1'
        omega
      have inv' := inv.setNext hmem hmono
      have hc' := hc.setNext hmono
      have hm : Moved { h with next := h.gen o, refcount := upd h.refcount o (h.refcount o - 1) }
        (toNonRootsBack { h with next := h.gen o, refcount := upd h.refcount o (h.refcount o - 1), gen := upd h.gen o (h.gen o) } (h.gen o) o)
        o (h.gen o) :=
        moved_nonRootsBack (by show upd h.refcount o (h.refcount o - 1) o = 0; rw [upd_eq]; exact h0)
      have := Comp.recount (h := { h with next := h.gen o }) inv' hl hc' hcg hm (by
        intro g hgm r h1
        by_cases hro : r = o
        · right
          subst hro
          have : h.gen r = g := inv.root_gen (List.mem_of_mem_head? h1) hgm
          exact ⟨n, by rw [← this]; exact hn', n, hn', Nat.le_refl _⟩
        · exact .inl (hroots g r h1 hro))
      exact this
    · rename_i hcond
      have hm : Moved { h with refcount := upd h.refcount o (h.refcount o - 1) }
        (toNonRootsBack { h with refcount := upd h.refcount o (h.refcount o - 1), gen := upd h.gen o (canon h (h.gen o)) } (canon h (h.gen o)) o)
        o (canon h (h.gen o)) :=
        moved_nonRootsBack (by show upd h.refcount o (h.refcount o - 1) o = 0; rw [upd_eq]; exact h0)
      refine Comp.recount inv hl hc rfl hm ?_
      intro g hgm r h1
      by_cases hro : r = o
      · right
        subst hro
        have hgr : h.gen r = g := inv.root_gen (List.mem_of_mem_head? h1) hgm
        obtain ⟨n, hn, hnN⟩ := hmax g hgm
        have hcg : canon h (h.gen r) = g := by unfold canon; rw [hgr, hn]; simp
        refine ⟨n, hn, inv.next_of_not_lt ?_⟩
        by_contra hne
        apply hcond
        rw [hcg]
        have h1' : ((h.roots g).head? == some r) = true := by simpa using h1
        have h2' : ((h.id g).le (h.id h.oldHead)) = true := by rw [hn, hN]; simp [Id.le, Id.lt]; exact hnN
        have h3' : ((h.id g).lt (h.id h.next)) = true := by rw [hn]; simpa using hne
        show (((h.id g).lt (h.id h.next) && (h.id g).le (h.id h.oldHead)) && ((h.roots g).head? == some r)) = true
        rw [h1', h2', h3']; rfl
      · exact .inl (hroots g r h1 hro)
  · exact hc.setCount

theorem store_comp {h : Heap} {a b} (inv : Inv none h) (la : Live h a) (lb : Live h b) (hc : Comp h.refs none h) :
    Comp (storeRef h a b).refs none (storeRef h a b) := by
  have h0 : storeRef h a b = withRefs (upd h.refs a (h.refs a ++ [b])) (addRef h a b) := addRef_refs h _ a b
  have hR : ∀ p q, q ∈ h.refs p → q ∈ upd h.refs a (h.refs a ++ [b]) p := by
    intro p q hq
    unfold upd; split
    · rename_i h1; subst h1; exact List.mem_append_left _ hq
    · exact hq
  have c1 : Comp (upd h.refs a (h.refs a ++ [b])) none h :=
    Comp.of hc hR fun p hp hpi => ⟨hp, hpi, rfl, fun n hn => ⟨hn, fun h => h⟩, fun r h1 => .inl h1⟩
  have c2 := addRef_comp inv la lb (by simp) c1 (by rw [upd_eq]; simp)
  rw [h0]
  exact c2

theorem round_comp {h h' : Heap} (n) (inv : Inv none h) (hc : Comp h.refs none h) (hr : round n h = some h') : Comp h'.refs none h' := by
  induction n generalizing h with
  | zero => simp [round] at hr
  | succ n ih =>
    have g := incrGc_good inv
    have c := incrGc_comp inv hc
    unfold round at hr
    split at hr
    · rename_i k hk
      rw [hk] at c
      injection hr with hr
      subst hr
      exact c
    · rename_i k hk
      rw [hk] at c g
      exact ih g.inv c hr

theorem drain_comp {h : Heap} (n) (inv : Inv none h) (hc : Comp h.refs none h) : Comp (drain n h).refs none (drain n h) := by
  induction n generalizing h with
  | zero => exact hc
  | succ n ih => exact ih (freeFirst_good inv).inv (freeFirst_comp inv hc)

theorem fullLoop_comp {h h' : Heap} (n) (inv : Inv none h) (hc : Comp h.refs none h) (hr : fullLoop n h = some h') : Comp h'.refs none h' := by
  induction n generalizing h with
  | zero => simp [fullLoop] at hr
  | succ n ih =>
    unfold fullLoop at hr
    split at hr
    · cases hr
    · rename_i k hk
      have g := round_good _ inv hk
      have c := round_comp _ inv hc hk
      split at hr
      · injection hr with hr; subst hr; exact c
      · exact ih (drain_good k.free.length g.inv).inv (drain_comp _ g.inv c) hr

theorem fullGc_comp {h h' : Heap} {n} (inv : Inv none h) (hc : Comp h.refs none h) (hr : fullGc n h = some h') : Comp h'.refs none h' := by
  unfold fullGc at hr
  split at hr
  · cases hr
  · rename_i k hk
    exact fullLoop_comp _ (round_good _ inv hk).inv (round_comp _ inv hc hk) hr

theorem run_comp (ops : List Op) (hl : Legal ops) : Comp (run ops).refs none (run ops) := by
  induction ops with
  | nil => exact newHeap_comp
  | cons op ops ih =>
    cases op with
    | alloc => have t := run_ok ops hl; exact alloc_comp t.inv t.fresh (ih hl)
    | retain p => have t := run_ok ops hl.1; exact retain_comp t.inv (t.live hl.2) (ih hl.1)
    | release p => have t := run_ok ops hl.1; exact release_comp t.inv (t.live (.held hl.2)) (ih hl.1)
    | store x y => have t := run_ok ops hl.1; exact store_comp t.inv (t.live hl.2.1) (t.live hl.2.2) (ih hl.1)
    | full n =>
      have t := run_ok ops hl
      show Comp ((fullGc n (run ops)).getD (run ops)).refs none ((fullGc n (run ops)).getD (run ops))
      cases hf : fullGc n (run ops) with
      | none => exact ih hl
      | some h' => exact fullGc_comp t.inv (ih hl) hf

end Verif.TypeHeap
