import Verif.TypeHeap.Inv
/-
FbleTypeAddRef and FbleTypeRefs keep the invariant.
-/
namespace Verif.TypeHeap

theorem touch_eq {h : Heap} {o} (ho : o ∉ h.freed) : touch h o = h := by simp [touch, ho]

theorem touchGen_eq {h : Heap} {g} (hg : g ∉ h.freedGens) : touchGen h g = h := by simp [touchGen, hg]

theorem edge_next {h : Heap} {g a b} (hm : ∀ n, NextLe h n → NextLe { h with next := g } n) (he : Edge h a b) :
    Edge { h with next := g } a b := by
  unfold Edge at *
  cases a with
  | num n =>
    rcases he with h1 | h1 | ⟨h1, h2⟩
    · exact .inl h1
    · exact .inr (.inl h1)
    · exact .inr (.inr ⟨h1, hm n h2⟩)
  | gc => trivial
  | mark => trivial
  | save => trivial
  | new => exact he

/-- Letting the next cycle start earlier. -/
theorem Inv.setNext {x h g} (inv : Inv x h) (hg : g ∈ h.old) (hm : ∀ n, NextLe h n → NextLe { h with next := g } n) :
    Inv x { h with next := g } :=
  { inv with
    next := .inr hg
    gens := inv.gens
    rootsOk := inv.rootsOk
    nonRootsOk := inv.nonRootsOk
    refsLive := inv.refsLive
    edge := fun o ho p hp => edge_next hm (inv.edge o ho p hp) }

/-- What the collector does while it follows references. -/
structure Step (h h' : Heap) : Prop where
  id : h'.id = h.id
  old : h'.old = h.old
  mark : h'.mark = h.mark
  gcs : h'.gcs = h.gcs
  save : h'.save = h.save
  new : h'.new = h.new
  refcount : h'.refcount = h.refcount
  refs : h'.refs = h.refs
  nextObj : h'.nextObj = h.nextObj
  nextGen : h'.nextGen = h.nextGen
  freed : h'.freed = h.freed
  freedGens : h'.freedGens = h.freedGens
  free : h'.free = h.free
  next : ∀ n, NextLe h n → NextLe h' n
  zone : ∀ o, h'.gen o = h.gen o ∨ (h.I o = .gc ∧ (h'.gen o = h.mark ∨ h'.gen o = h.save)) ∨ (h.I o = .save ∧ h'.gen o = h.mark)

theorem Step.refl (h : Heap) : Step h h :=
  ⟨rfl, rfl, rfl, rfl, rfl, rfl, rfl, rfl, rfl, rfl, rfl, rfl, rfl, fun _ h => h, fun _ => .inl rfl⟩

theorem Step.live {h h'} (s : Step h h') (o) : Live h' o ↔ Live h o := by
  unfold Live; rw [s.nextObj, s.freed, s.free]

theorem Step.oldHead {h h'} (s : Step h h') : h'.oldHead = h.oldHead := by unfold Heap.oldHead; rw [s.old]

/-- Zones other than gc and save stay. -/
theorem Step.keep {h h'} (s : Step h h') {o} (h1 : h.I o ≠ .gc) (h2 : h.I o ≠ .save) : h'.gen o = h.gen o := by
  rcases s.zone o with h3 | h3 | h3
  · exact h3
  · exact absurd h3.1 h1
  · exact absurd h3.1 h2

theorem Step.keepI {h h'} (s : Step h h') {o} (h1 : h.I o ≠ .gc) (h2 : h.I o ≠ .save) : h'.I o = h.I o := by
  unfold Heap.I; rw [s.id, s.keep h1 h2]

theorem Step.trans {x a b c} (inv : Inv x a) (s : Step a b) (t : Step b c) : Step a c where
  id := t.id.trans s.id
  old := t.old.trans s.old
  mark := t.mark.trans s.mark
  gcs := t.gcs.trans s.gcs
  save := t.save.trans s.save
  new := t.new.trans s.new
  refcount := t.refcount.trans s.refcount
  refs := t.refs.trans s.refs
  nextObj := t.nextObj.trans s.nextObj
  nextGen := t.nextGen.trans s.nextGen
  freed := t.freed.trans s.freed
  freedGens := t.freedGens.trans s.freedGens
  free := t.free.trans s.free
  next := fun n h => t.next n (s.next n h)
  zone := fun o => by
    rcases s.zone o with h1 | ⟨h1, h2⟩ | ⟨h1, h2⟩
    · have hI : b.I o = a.I o := by unfold Heap.I; rw [s.id, h1]
      rcases t.zone o with h3 | ⟨h3, h4⟩ | ⟨h3, h4⟩
      · exact .inl (h3.trans h1)
      · exact .inr (.inl ⟨hI ▸ h3, by rw [s.mark, s.save] at h4; exact h4⟩)
      · exact .inr (.inr ⟨hI ▸ h3, by rw [s.mark] at h4; exact h4⟩)
    · rcases h2 with h2 | h2
      · have hI : b.I o = .mark := by unfold Heap.I; rw [s.id, h2, inv.markId]
        right; left
        exact ⟨h1, .inl ((t.keep (by rw [hI]; simp) (by rw [hI]; simp)).trans h2)⟩
      · right; left
        refine ⟨h1, ?_⟩
        rcases t.zone o with h3 | ⟨h3, h4⟩ | ⟨h3, h4⟩
        · exact .inr (h3.trans h2)
        · rw [s.mark, s.save] at h4; exact h4
        · rw [s.mark] at h4; exact .inl h4
    · have hI : b.I o = .mark := by unfold Heap.I; rw [s.id, h2, inv.markId]
      right; right
      exact ⟨h1, (t.keep (by rw [hI]; simp) (by rw [hI]; simp)).trans h2⟩

theorem Inv.next_of_not_lt {x h} (inv : Inv x h) {n} (hn : (Id.num n).lt (h.id h.next) = false) : NextLe h n := by
  rcases inv.next with h1 | h1
  · rw [h1, inv.newId] at hn; simp [Id.lt, Id.special] at hn
  · obtain ⟨m, hm⟩ := inv.oldNum _ h1
    refine ⟨m, hm, ?_⟩
    rw [hm] at hn
    simp [Id.lt] at hn
    exact hn

theorem Inv.I_of_gen {x h} (inv : Inv x h) {o} (hl : Live h o) : (∃ n, h.I o = .num n ∧ h.gen o ∈ h.old) ∨
    h.I o = .gc ∨ h.I o = .mark ∨ h.I o = .save ∨ h.I o = .new := by
  cases hi : h.I o with
  | num n => exact .inl ⟨n, rfl, inv.zone_old hl hi⟩
  | gc => simp
  | mark => simp
  | save => simp
  | new => simp

theorem addRefNext_ok {x h src dst} (inv : Inv x h) (ls : Live h src) :
    Inv x (addRefNext h src dst) ∧ (addRefNext h src dst = h ∨ ∃ g, addRefNext h src dst = { h with next := g }) ∧
    (∀ n, NextLe h n → NextLe (addRefNext h src dst) n) ∧
    (∀ n, h.I src = .num n → (Id.num n).lt (h.I dst) = true → NextLe (addRefNext h src dst) n) ∧
    (∀ N, h.I src = .mark → h.I dst = .new → h.id h.oldHead = .num N → NextLe (addRefNext h src dst) N) := by
  obtain ⟨N, hN, hmax⟩ := inv.oldHead_max
  unfold addRefNext
  simp only
  split
  · rename_i hc
    simp only [Bool.and_eq_true] at hc
    obtain ⟨⟨c1, c2⟩, c3⟩ := hc
    have hnum : ∃ n, h.I src = .num n := by
      cases hi : h.I src with
      | num n => exact ⟨n, rfl⟩
      | _ => unfold Heap.I at hi; rw [hi, hN] at c1; simp [Id.le, Id.lt, Id.special] at c1
    obtain ⟨n, hn⟩ := hnum
    have hmem := inv.zone_old ls hn
    unfold Heap.I at hn
    have hmono : ∀ k, NextLe h k → NextLe { h with next := h.gen src } k := by
      rintro k ⟨m, hm, hk⟩
      refine ⟨n, hn, ?_⟩
      rw [hn, hm, Id.lt_num] at c3
      omega
    refine ⟨inv.setNext hmem hmono, .inr ⟨_, rfl⟩, hmono, ?_, ?_⟩
    · intro k hk _
      refine ⟨n, hn, ?_⟩
      unfold Heap.I at hk; rw [hn] at hk; injection hk with hk; omega
    · intro k hk; unfold Heap.I at hk; rw [hn] at hk; cases hk
  · rename_i hc
    split
    · rename_i hd
      simp only [Bool.and_eq_true, beq_iff_eq] at hd
      obtain ⟨⟨d1, d2⟩, d3⟩ := hd
      have hmono : ∀ k, NextLe h k → NextLe { h with next := h.oldHead } k := by
        rintro k ⟨m, hm, hk⟩
        rw [d1, hm] at d3
        simp [Id.lt, Id.special] at d3
      refine ⟨inv.setNext inv.oldHead_mem hmono, .inr ⟨_, rfl⟩, hmono, ?_, ?_⟩
      · intro k hk; unfold Heap.I at hk; rw [d1] at hk; cases hk
      · intro k _ _ hk
        exact ⟨k, hk, Nat.le_refl _⟩
    · rename_i hd
      refine ⟨inv, .inl rfl, fun _ h => h, ?_, ?_⟩
      · intro n hn hlt
        apply inv.next_of_not_lt
        by_contra hne
        apply hc
        unfold Heap.I at hn hlt
        obtain ⟨n', h1, h2⟩ := hmax _ (inv.zone_old ls hn)
        rw [hn] at h1; injection h1 with h1
        subst h1
        rw [hn, hN, hlt]
        simp only [Bool.not_eq_false] at hne
        rw [hne]
        simp [Id.le, Id.lt]
        exact h2
      · intro k h1 h2 h3
        unfold Heap.I at h1 h2
        rw [hN] at h3; injection h3 with h3; subst h3
        rcases inv.next with h4 | h4
        · exfalso
          apply hd
          rw [h1, h2, h4, inv.newId]
          simp [Id.lt, Id.special]
        · exact hmax _ h4

theorem addRef_ok {x h src dst} (inv : Inv x h) (ls : Live h src) (ld : Live h dst) (hx : ∀ o, x = some o → h.I o = .mark) :
    Inv x (addRef h src dst) ∧ Step h (addRef h src dst) ∧ (addRef h src dst).I src = h.I src ∧
    (h.I src ≠ .gc → (addRef h src dst).I dst ≠ .gc) ∧
    (h.I src = .mark → (addRef h src dst).I dst ≠ .save ∧
      ∀ N, (addRef h src dst).I dst = .new → h.id h.oldHead = .num N → NextLe (addRef h src dst) N) ∧
    Edge (addRef h src dst) ((addRef h src dst).I src) ((addRef h src dst).I dst) := by
  have hs := (inv.ltGen _ (inv.gens src ls)).2
  have hd := (inv.ltGen _ (inv.gens dst ld)).2
  have e0 : touchGen (touchGen (touch (touch h src) dst) ((touch (touch h src) dst).gen src)) ((touch (touch h src) dst).gen dst) = h := by
    rw [touch_eq ls.2.1, touch_eq ld.2.1, touchGen_eq hs, touchGen_eq hd]
  unfold addRef
  simp only [e0]
  obtain ⟨i1, i2, i3, i4, i5⟩ := addRefNext_ok (dst := dst) inv ls
  generalize addRefNext h src dst = k at i1 i2 i3 i4 i5
  have hk : k.I = h.I ∧ k.id = h.id ∧ k.gen = h.gen ∧ k.old = h.old ∧ k.oldHead = h.oldHead := by
    rcases i2 with rfl | ⟨g, rfl⟩ <;> exact ⟨rfl, rfl, rfl, rfl, rfl⟩
  obtain ⟨k1, k2, k3, k4, k5⟩ := hk
  have hst : Step h k := by
    rcases i2 with rfl | ⟨g, rfl⟩
    · exact Step.refl _
    · exact ⟨rfl, rfl, rfl, rfl, rfl, rfl, rfl, rfl, rfl, rfl, rfl, rfl, rfl, i3, fun _ => .inl rfl⟩
  have ls' : Live k src := (hst.live _).mpr ls
  have ld' : Live k dst := (hst.live _).mpr ld
  -- the edge if the zone of dst is b at the end
  have hedge : ∀ b, (k.I dst = .gc → k.I src ≠ .gc → b ≠ .gc) → (k.I dst ≠ .gc → b = k.I dst ∨ b = .mark ∧ k.I src = .mark) →
      Edge k (k.I src) b := by
    intro b hb1 hb2
    unfold Edge
    cases hi : k.I src with
    | num n =>
      simp only
      rw [k1] at hi hb1 hb2
      rw [hi] at hb1 hb2
      by_cases hgc : h.I dst = .gc
      · exact .inr (.inr ⟨hb1 hgc (by simp), i4 n hi (by rw [hgc]; rfl)⟩)
      · have hb : b = h.I dst := by rcases hb2 hgc with h1 | h1; exact h1; exact absurd h1.2 (by simp)
        rw [hb]
        cases hdd : h.I dst with
        | num m =>
          by_cases hmn : m ≤ n
          · exact .inl ⟨m, rfl, hmn⟩
          · exact .inr (.inr ⟨by simp, i4 n hi (by rw [hdd, Id.lt_num]; omega)⟩)
        | gc => exact absurd hdd hgc
        | mark => exact .inr (.inr ⟨by simp, i4 n hi (by rw [hdd]; rfl)⟩)
        | save => exact .inr (.inr ⟨by simp, i4 n hi (by rw [hdd]; rfl)⟩)
        | new => exact .inr (.inr ⟨by simp, i4 n hi (by rw [hdd]; rfl)⟩)
    | gc => trivial
    | mark => trivial
    | save => trivial
    | new =>
      rw [hi] at hb1 hb2
      by_cases hgc : k.I dst = .gc
      · exact hb1 hgc (by simp)
      · rcases hb2 hgc with h1 | h1
        · rw [h1]; exact hgc
        · exact absurd h1.2 (by simp)
  -- moving dst to mark or save
  have hmove : ∀ g, (k.I dst = .gc ∧ (g = k.mark ∨ g = k.save) ∨ k.I dst = .save ∧ g = k.mark) → src ≠ dst →
      let k' := if k.refcount dst = 0 then toNonRootsBack { k with gen := upd k.gen dst g } g dst
        else toRootsBack { k with gen := upd k.gen dst g } g dst
      Inv x k' ∧ Step h k' ∧ k'.I src = k.I src ∧ k'.I dst = k.id g ∧ (∀ a b, Edge k' a b ↔ Edge k a b) ∧
      (∀ n, NextLe k' n ↔ NextLe k n) := by
    intro g hg hne k'
    have hm : Moved k k' dst g := by
      show Moved k (if _ then _ else _) dst g
      split
      · exact moved_nonRootsBack (by assumption)
      · exact moved_rootsBack (by omega)
    have hxd : x ≠ some dst := by
      intro h
      have := hx _ h
      rw [← k1] at this
      rw [this] at hg
      simp at hg
    have hgid : k.id g = .mark ∨ k.id g = .save := by
      rcases hg with ⟨_, h1 | h1⟩ | ⟨_, h1⟩
      · left; rw [h1]; exact i1.markId
      · right; rw [h1]; exact i1.saveId
      · left; rw [h1]; exact i1.markId
    have hinv : Inv x k' := by
      refine hm.inv i1 (fun p _ h => h) ld' ?_ ?_ ?_
      · rcases hg with ⟨_, h1 | h1⟩ | ⟨_, h1⟩ <;> simp [h1]
      · intro p _
        rcases hgid with h1 | h1 <;> rw [h1] <;> trivial
      · intro p hp hlp hmem
        have he := i1.edge p hlp dst hmem
        unfold Edge at he ⊢
        cases hi : k.I p with
        | num n =>
          rw [hi] at he
          simp only at he ⊢
          rcases hg with ⟨h1, _⟩ | ⟨h1, h2⟩
          · rw [h1] at he; simp at he
          · rw [h1] at he; simp at he
            right; right
            refine ⟨?_, he⟩
            rcases hgid with h1 | h1 <;> rw [h1] <;> simp
        | gc => trivial
        | mark => trivial
        | save => trivial
        | new =>
          simp only
          rcases hgid with h1 | h1 <;> rw [h1] <;> simp
    refine ⟨hinv, ?_, ?_, ?_, hm.edge, hm.nextLe⟩
    · refine ⟨hm.id.trans k2, hm.old.trans hst.old, hm.mark.trans hst.mark, hm.gcs.trans hst.gcs, hm.save.trans hst.save,
        hm.new.trans hst.new, hm.refcount.trans hst.refcount, hm.refs.trans hst.refs, hm.nextObj.trans hst.nextObj,
        hm.nextGen.trans hst.nextGen, hm.freed.trans hst.freed, hm.freedGens.trans hst.freedGens, ?_,
        fun n h => (hm.nextLe n).mpr (i3 n h), fun o => ?_⟩
      · rw [hm.free, ← hst.free]
        exact List.filter_eq_self.mpr fun a ha => by
          simp only [decide_eq_true_eq]; rintro rfl; exact ld'.2.2 ha
      · rw [hm.gen, k3]
        by_cases ho : o = dst
        · subst ho
          rw [upd_eq]
          rw [← hst.mark, ← hst.save, ← k1]
          rcases hg with h1 | h1
          · exact .inr (.inl h1)
          · exact .inr (.inr h1)
        · left; exact upd_ne _ _ ho
    · rw [hm.I, if_neg hne]
    · rw [hm.I, if_pos rfl]
  -- the object is moved to mark
  have hself : k.I dst = .gc ∧ k.I src ≠ .gc ∨ k.I dst = .save ∧ k.I src = .mark → src ≠ dst := by
    rintro (⟨h1, h2⟩ | ⟨h1, h2⟩) rfl
    · exact h2 h1
    · rw [h1] at h2; cases h2
  have hIk : ∀ o, k.id (k.gen o) = k.I o := fun _ => rfl
  rw [← k1]
  unfold moveTo
  simp only [hIk]
  by_cases c1 : k.I dst = .gc
  · simp only [c1, beq_self_eq_true, if_true]
    by_cases c2 : k.I src = .mark
    · simp only [c2, beq_self_eq_true, if_true]
      obtain ⟨m1, m2, m3, m4, m5, m6⟩ := hmove k.mark (.inl ⟨c1, .inl rfl⟩) (hself (.inl ⟨c1, by rw [c2]; simp⟩))
      rw [i1.markId] at m4
      refine ⟨m1, m2, m3.trans c2, fun _ => by rw [m4]; simp, fun _ => ⟨by rw [m4]; simp, fun N h => ?_⟩, ?_⟩
      · rw [m4] at h; cases h
      · rw [m3, c2]; trivial
    · have c2' : (k.I src == Id.mark) = false := by simpa using c2
      simp only [c2', Bool.false_eq_true, if_false]
      by_cases c3 : k.I src = .gc
      · have c3' : (k.I src != Id.gc) = false := by simp [c3]
        simp only [c3', Bool.false_eq_true, if_false]
        refine ⟨i1, hst, trivial, fun h => absurd c3 h, fun h => absurd h c2, ?_⟩
        rw [c3]; trivial
      · have c3' : (k.I src != Id.gc) = true := by simpa using c3
        simp only [c3', if_true]
        obtain ⟨m1, m2, m3, m4, m5, m6⟩ := hmove k.save (.inl ⟨c1, .inr rfl⟩) (hself (.inl ⟨c1, c3⟩))
        rw [i1.saveId] at m4
        refine ⟨m1, m2, m3, fun _ => by rw [m4]; simp, fun h => absurd h c2, ?_⟩
        rw [m5, m3, m4]
        exact hedge _ (fun _ _ => by simp) (fun h => absurd c1 h)
  · have c1' : (k.I dst == Id.gc) = false := by simpa using c1
    simp only [c1', Bool.false_eq_true, if_false]
    by_cases c2 : k.I src = .mark ∧ k.I dst = .save
    · simp only [c2.1, c2.2, beq_self_eq_true, Bool.and_self, if_true]
      obtain ⟨m1, m2, m3, m4, m5, m6⟩ := hmove k.mark (.inr ⟨c2.2, rfl⟩) (hself (.inr ⟨c2.2, c2.1⟩))
      rw [i1.markId] at m4
      refine ⟨m1, m2, m3.trans c2.1, fun _ => by rw [m4]; simp, fun _ => ⟨by rw [m4]; simp, fun N h => ?_⟩, ?_⟩
      · rw [m4] at h; cases h
      · rw [m3, c2.1]; trivial
    · have c2' : (k.I src == Id.mark && k.I dst == Id.save) = false := by
        simp only [Bool.and_eq_false_iff, beq_eq_false_iff_ne, ne_eq]; tauto
      simp only [c2', Bool.false_eq_true, if_false]
      refine ⟨i1, hst, trivial, fun _ => c1, fun h => ⟨fun h2 => c2 ⟨h, h2⟩, fun N h2 h3 => i5 N (k1 ▸ h) (k1 ▸ h2) h3⟩, ?_⟩
      exact hedge _ (fun h => absurd h c1) (fun _ => .inl rfl)

/-- Following all references of an object. -/
theorem foldRefs_ok {x src} : ∀ (ps : List Obj) {h : Heap}, Inv x h → Live h src → (∀ p ∈ ps, Live h p) →
    (∀ o, x = some o → h.I o = .mark) →
    let h' := ps.foldl (fun h p => addRef h src p) h
    Inv x h' ∧ Step h h' ∧ h'.I src = h.I src ∧
    (h.I src ≠ .gc → ∀ p ∈ ps, h'.I p ≠ .gc) ∧
    (h.I src = .mark → ∀ p ∈ ps, h'.I p ≠ .save ∧ ∀ N, h'.I p = .new → h.id h.oldHead = .num N → NextLe h' N) := by
  intro ps
  induction ps with
  | nil => intro h inv _ _ _; exact ⟨inv, Step.refl _, rfl, by simp, by simp⟩
  | cons p ps ih =>
    intro h inv ls lp hx h'
    obtain ⟨a1, a2, a3, a4, a5, a6⟩ := addRef_ok inv ls (lp p (by simp)) hx
    have hx' : ∀ o, x = some o → (addRef h src p).I o = .mark := by
      intro o ho
      have := hx o ho
      rw [a2.keepI (by rw [this]; simp) (by rw [this]; simp), this]
    obtain ⟨b1, b2, b3, b4, b5⟩ := ih a1 ((a2.live _).mpr ls) (fun q hq => (a2.live _).mpr (lp q (by simp [hq]))) hx'
    have hs := Step.trans inv a2 b2
    refine ⟨b1, hs, b3.trans a3, ?_, ?_⟩
    · intro hgc q hq
      rcases List.mem_cons.mp hq with rfl | hq
      · have h1 := a4 hgc
        show (List.foldl _ (addRef h src q) ps).I q ≠ .gc
        by_cases h2 : (addRef h src q).I q = .save
        · unfold Heap.I
          rw [b2.id]
          rcases b2.zone q with h3 | ⟨h3, _⟩ | ⟨_, h3⟩
          · rw [h3]; exact h1
          · exact absurd h3 h1
          · rw [h3, a1.markId]; simp
        · rw [b2.keepI h1 h2]; exact h1
      · exact b4 (by rw [a3]; exact hgc) q hq
    · intro hm q hq
      rcases List.mem_cons.mp hq with rfl | hq
      · obtain ⟨h1, h2⟩ := a5 hm
        have h3 := a4 (by rw [hm]; simp)
        have h4 := b2.keepI h3 h1
        refine ⟨?_, fun N hn hN => ?_⟩
        · show (List.foldl _ (addRef h src q) ps).I q ≠ .save
          rw [h4]; exact h1
        · exact b2.next N (h2 N (by rw [← h4]; exact hn) hN)
      · obtain ⟨h1, h2⟩ := b5 (by rw [a3]; exact hm) q hq
        exact ⟨h1, fun N hn hN => h2 N hn (by rw [a2.id, a2.oldHead]; exact hN)⟩

theorem typeRefs_ok {x h src} (inv : Inv x h) (ls : Live h src) (hx : ∀ o, x = some o → h.I o = .mark) :
    Inv x (typeRefs h src) ∧ Step h (typeRefs h src) ∧ (typeRefs h src).I src = h.I src ∧
    (h.I src ≠ .gc → ∀ p ∈ h.refs src, (typeRefs h src).I p ≠ .gc) ∧
    (h.I src = .mark → ∀ p ∈ h.refs src, (typeRefs h src).I p ≠ .save ∧
      ∀ N, (typeRefs h src).I p = .new → h.id h.oldHead = .num N → NextLe (typeRefs h src) N) := by
  unfold typeRefs
  rw [touch_eq ls.2.1]
  exact foldRefs_ok _ inv ls (inv.refsLive src ls) hx

end Verif.TypeHeap
