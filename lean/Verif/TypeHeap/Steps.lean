import Verif.TypeHeap.AddRef
/-
Every operation of the type heap keeps the invariant.
-/
namespace Verif.TypeHeap

theorem filter_ne {l : List Obj} {o : Obj} (h : o ∉ l) : l.filter (· ≠ o) = l :=
  List.filter_eq_self.mpr fun a ha => by simp only [decide_eq_true_eq]; rintro rfl; exact h ha

theorem Inv.not_root {x h} (inv : Inv x h) {o} (hx : x ≠ some o) (hl : ¬ Live h o) (g) : o ∉ h.roots g ∧ o ∉ h.nonRoots g :=
  ⟨fun h => hl ((inv.rootsOk g o hx).mp h).1, fun h => hl ((inv.nonRootsOk g o hx).mp h).1⟩

theorem freeFirst_ok {h : Heap} (inv : Inv none h) : Inv none (freeFirst h) ∧ (∀ o, Live (freeFirst h) o ↔ Live h o) := by
  unfold freeFirst
  cases hf : h.free with
  | nil => exact ⟨inv, fun _ => Iff.rfl⟩
  | cons o rest =>
    have ho := inv.freeOk o (by rw [hf]; simp)
    have hnl : ¬ Live h o := fun h1 => h1.2.2 (by rw [hf]; simp)
    have hnd := inv.ndFree
    rw [hf] at hnd
    obtain ⟨hnd1, hnd2⟩ := List.nodup_cons.mp hnd
    simp only [touch_eq ho.2.1]
    have hr : (unlink h o).roots = h.roots := funext fun g => filter_ne (inv.not_root (by simp) hnl g).1
    have hn : (unlink h o).nonRoots = h.nonRoots := funext fun g => filter_ne (inv.not_root (by simp) hnl g).2
    have hfree : (unlink h o).free = rest := by
      show h.free.filter (· ≠ o) = rest
      rw [hf, List.filter_cons]
      simp only [ne_eq, not_true_eq_false, decide_false, Bool.false_eq_true, if_false]
      exact filter_ne hnd1
    have hlive : ∀ p, Live { unlink h o with freed := o :: h.freed } p ↔ Live h p := by
      intro p
      show (p < h.nextObj ∧ p ∉ o :: h.freed ∧ p ∉ (unlink h o).free) ↔ (p < h.nextObj ∧ p ∉ h.freed ∧ p ∉ h.free)
      rw [hfree, hf]
      simp only [List.mem_cons]
      tauto
    refine ⟨?_, hlive⟩
    exact
    { inv with
      gens := fun p hp => inv.gens p ((hlive p).mp hp)
      rootsOk := fun g p _ => by
        show p ∈ (unlink h o).roots g ↔ _
        exact (iff_of_eq (congrArg (p ∈ ·) (congrFun hr g))).trans
          ((inv.rootsOk g p (by simp)).trans (and_congr (hlive p).symm Iff.rfl))
      nonRootsOk := fun g p _ => by
        show p ∈ (unlink h o).nonRoots g ↔ _
        exact (iff_of_eq (congrArg (p ∈ ·) (congrFun hn g))).trans
          ((inv.nonRootsOk g p (by simp)).trans (and_congr (hlive p).symm Iff.rfl))
      ndRoots := fun g => by show ((unlink h o).roots g).Nodup; rw [hr]; exact inv.ndRoots g
      ndNonRoots := fun g => by show ((unlink h o).nonRoots g).Nodup; rw [hn]; exact inv.ndNonRoots g
      freeOk := fun p hp => by
        have hp : p ∈ (unlink h o).free := hp
        rw [hfree] at hp
        obtain ⟨h1, h2, h3⟩ := inv.freeOk p (by rw [hf]; exact List.mem_cons_of_mem _ hp)
        refine ⟨h1, ?_, h3⟩
        show p ∉ o :: h.freed
        simp only [List.mem_cons, not_or]
        exact ⟨fun h => hnd1 (h ▸ hp), h2⟩
      ndFree := by show (unlink h o).free.Nodup; rw [hfree]; exact hnd2
      freedOk := fun p hp => by
        have hp : p ∈ o :: h.freed := hp
        rcases List.mem_cons.mp hp with rfl | hp
        · exact ⟨ho.1, ho.2.2⟩
        · exact inv.freedOk p hp
      ndFreed := List.nodup_cons.mpr ⟨ho.2.1, inv.ndFreed⟩
      refsLive := fun p hp q hq => (hlive q).mpr (inv.refsLive p ((hlive p).mp hp) q hq)
      edge := fun p hp q hq => inv.edge p ((hlive p).mp hp) q hq }

/-- No object is in the zone mark. -/
theorem Inv.noMark {h} (inv : Inv none h) (h1 : h.nonRoots h.mark = []) (h2 : h.roots h.mark = []) :
    ∀ o, Live h o → h.I o ≠ .mark := by
  intro o hl hi
  have hg := inv.zone_mark hl hi
  have hc : canon h (h.gen o) = h.mark := by unfold canon; rw [hg, inv.markId]; simp
  by_cases hr : h.refcount o = 0
  · have := (inv.nonRootsOk h.mark o (by simp)).mpr ⟨hl, hc, hr⟩
    rw [h1] at this; simp at this
  · have := (inv.rootsOk h.mark o (by simp)).mpr ⟨hl, hc, by omega⟩
    rw [h2] at this; simp at this

theorem Inv.noSave {h} (inv : Inv none h) (h1 : h.nonRoots h.save = []) (h2 : h.roots h.save = []) :
    ∀ o, Live h o → h.I o ≠ .save := by
  intro o hl hi
  have hg := inv.zone_save hl hi
  have hc : canon h (h.gen o) = h.save := by unfold canon; rw [hg, inv.saveId]; simp
  by_cases hr : h.refcount o = 0
  · have := (inv.nonRootsOk h.save o (by simp)).mpr ⟨hl, hc, hr⟩
    rw [h1] at this; simp at this
  · have := (inv.rootsOk h.save o (by simp)).mpr ⟨hl, hc, by omega⟩
    rw [h2] at this; simp at this

theorem startOld_cases (h : Heap) : (startOld h = h ∧ h.roots h.oldHead = [] ∧ h.nonRoots h.oldHead = []) ∨
    startOld h = { newGen h (.num (match h.id h.oldHead with | .num n => n + 1 | _ => 0)) with old := h.nextGen :: h.old } := by
  unfold startOld
  split
  · rename_i h1 h2; exact .inl ⟨rfl, h1, h2⟩
  · right; rfl

theorem startOld_ok {h : Heap} (inv : Inv none h) (hm : ∀ o, Live h o → h.I o ≠ .mark) :
    Inv none (startOld h) ∧ (∀ o, Live (startOld h) o ↔ Live h o) := by
  rcases startOld_cases h with ⟨h1, _⟩ | h1
  · rw [h1]; exact ⟨inv, fun _ => Iff.rfl⟩
  · rw [h1]
    obtain ⟨N, hN, hmax⟩ := inv.oldHead_max
    rw [hN]
    refine ⟨?_, fun _ => Iff.rfl⟩
    show Inv none { newGen h (.num (N + 1)) with old := h.nextGen :: h.old }
    have hlt : ∀ g, (g ∈ h.old ∨ g ∈ h.gcs ∨ g = h.mark ∨ g = h.save ∨ g = h.new) → g ≠ h.nextGen := by
      intro g hg he
      have := (inv.ltGen g hg).1
      rw [he] at this
      exact Nat.lt_irrefl _ this
    have hid : ∀ g, g ≠ h.nextGen → upd h.id h.nextGen (.num (N + 1)) g = h.id g := fun g hg => upd_ne _ _ hg
    have hgen : ∀ o, Live h o → h.gen o ≠ h.nextGen := fun o ho => hlt _ (inv.gens o ho)
    have hI : ∀ o, Live h o → ({ newGen h (.num (N + 1)) with old := h.nextGen :: h.old } : Heap).I o = h.I o := by
      intro o ho
      exact hid _ (hgen o ho)
    have hnx : h.next ≠ h.nextGen := by
      rcases inv.next with h2 | h2
      · exact hlt _ (.inr (.inr (.inr (.inr h2))))
      · exact hlt _ (.inl h2)
    have hcan : ∀ o, Live h o → canon ({ newGen h (.num (N + 1)) with old := h.nextGen :: h.old } : Heap) (h.gen o) = canon h (h.gen o) := by
      intro o ho
      show (if upd h.id h.nextGen (.num (N + 1)) (h.gen o) = .gc then h.gcHead else h.gen o) = _
      rw [hid _ (hgen o ho)]
      rfl
    have hcne : ∀ o, Live h o → canon h (h.gen o) ≠ h.nextGen := by
      intro o ho
      unfold canon
      split
      · exact hlt _ (.inr (.inl inv.gcHead_mem))
      · exact hgen o ho
    exact
    { inv with
      oldNe := by simp
      oldNum := by
        intro g hg
        rcases List.mem_cons.mp hg with rfl | hg
        · exact ⟨N + 1, upd_eq _ _ _⟩
        · obtain ⟨n, hn⟩ := inv.oldNum g hg
          exact ⟨n, (hid g (hlt g (.inl hg))).trans hn⟩
      oldDec := by
        refine List.pairwise_cons.mpr ⟨fun g hg => ?_, ?_⟩
        · show (upd h.id h.nextGen _ g).lt (upd h.id h.nextGen _ h.nextGen) = true
          obtain ⟨n, h2, h3⟩ := hmax g hg
          rw [hid g (hlt g (.inl hg)), upd_eq, h2, Id.lt_num]
          omega
        · refine inv.oldDec.imp_of_mem fun {a b} ha hb hab => ?_
          show (upd h.id h.nextGen _ b).lt (upd h.id h.nextGen _ a) = true
          rw [hid _ (hlt _ (.inl ha)), hid _ (hlt _ (.inl hb))]
          exact hab
      gcId := fun g hg => (hid g (hlt g (.inr (.inl hg)))).trans (inv.gcId g hg)
      markId := (hid _ (hlt _ (.inr (.inr (.inl rfl))))).trans inv.markId
      saveId := (hid _ (hlt _ (.inr (.inr (.inr (.inl rfl)))))).trans inv.saveId
      newId := (hid _ (hlt _ (.inr (.inr (.inr (.inr rfl)))))).trans inv.newId
      ltGen := by
        intro g hg
        show g < h.nextGen + 1 ∧ g ∉ h.freedGens
        by_cases he : g = h.nextGen
        · subst he
          exact ⟨Nat.lt_succ_self _, fun h1 => Nat.lt_irrefl _ (inv.ltFreed _ h1)⟩
        · have : g ∈ h.old ∨ g ∈ h.gcs ∨ g = h.mark ∨ g = h.save ∨ g = h.new := by
            rcases hg with hg | hg
            · exact .inl ((List.mem_cons.mp hg).resolve_left he)
            · exact .inr hg
          have := inv.ltGen g this
          exact ⟨Nat.lt_succ_of_lt this.1, this.2⟩
      ltFreed := fun g hg => Nat.lt_succ_of_lt (inv.ltFreed g hg)
      next := by
        rcases inv.next with h2 | h2
        · exact .inl h2
        · exact .inr (List.mem_cons_of_mem _ h2)
      gens := fun o ho => by
        rcases inv.gens o ho with h2 | h2
        · exact .inl (List.mem_cons_of_mem _ h2)
        · exact .inr h2
      rootsOk := fun g o _ => by
        show o ∈ upd h.roots h.nextGen [] g ↔ Live h o ∧ canon _ (h.gen o) = g ∧ 0 < h.refcount o
        by_cases hg : g = h.nextGen
        · subst hg
          rw [upd_eq]
          simp only [List.not_mem_nil, false_iff, not_and]
          intro h1 h2
          rw [hcan o h1] at h2
          exact absurd h2 (hcne o h1)
        · rw [upd_ne _ _ hg, inv.rootsOk g o (by simp)]
          constructor
          · rintro ⟨h1, h2⟩; exact ⟨h1, by rw [hcan o h1]; exact h2⟩
          · rintro ⟨h1, h2⟩; exact ⟨h1, by rw [hcan o h1] at h2; exact h2⟩
      nonRootsOk := fun g o _ => by
        show o ∈ upd h.nonRoots h.nextGen [] g ↔ Live h o ∧ canon _ (h.gen o) = g ∧ h.refcount o = 0
        by_cases hg : g = h.nextGen
        · subst hg
          rw [upd_eq]
          simp only [List.not_mem_nil, false_iff, not_and]
          intro h1 h2
          rw [hcan o h1] at h2
          exact absurd h2 (hcne o h1)
        · rw [upd_ne _ _ hg, inv.nonRootsOk g o (by simp)]
          constructor
          · rintro ⟨h1, h2⟩; exact ⟨h1, by rw [hcan o h1]; exact h2⟩
          · rintro ⟨h1, h2⟩; exact ⟨h1, by rw [hcan o h1] at h2; exact h2⟩
      ndRoots := fun g => by
        show (upd h.roots h.nextGen [] g).Nodup
        unfold upd; split
        · simp
        · exact inv.ndRoots g
      ndNonRoots := fun g => by
        show (upd h.nonRoots h.nextGen [] g).Nodup
        unfold upd; split
        · simp
        · exact inv.ndNonRoots g
      refsLive := inv.refsLive
      edge := fun o ho p hp => by
        have hp' := inv.refsLive o ho p hp
        have he := inv.edge o ho p hp
        rw [hI o ho, hI p hp']
        unfold Edge at he ⊢
        cases hi : h.I o with
        | num n =>
          rw [hi] at he
          simp only at he ⊢
          rcases he with h2 | h2 | ⟨h2, m, h3, h4⟩
          · exact .inl h2
          · exact absurd h2.1 (hm p hp')
          · refine .inr (.inr ⟨h2, m, ?_, h4⟩)
            show upd h.id h.nextGen _ h.next = _
            rw [hid _ hnx]; exact h3
        | gc => trivial
        | mark => trivial
        | save => trivial
        | new => rw [hi] at he; exact he }

theorem Inv.edge_out {x h} (inv : Inv x h) {N} (hN : h.id h.oldHead = .num N) {p} (hp : Live h p)
    (h1 : h.I p ≠ .gc) (h2 : h.I p ≠ .save) (h3 : h.I p = .new → NextLe h N) : Edge h (.num N) (h.I p) := by
  unfold Edge
  simp only
  cases hi : h.I p with
  | num m =>
    obtain ⟨N', h4, h5⟩ := inv.oldHead_max
    rw [hN] at h4; injection h4 with h4; subst h4
    obtain ⟨n, h6, h7⟩ := h5 _ (inv.zone_old hp hi)
    unfold Heap.I at hi
    rw [hi] at h6; injection h6 with h6
    exact .inl ⟨m, rfl, by omega⟩
  | gc => exact absurd hi h1
  | mark => exact .inr (.inl ⟨rfl, hN⟩)
  | save => exact absurd hi h2
  | new => exact .inr (.inr ⟨by simp, h3 hi⟩)

/-- Putting an object whose references were followed from mark into the youngest old generation. -/
theorem settle_ok {x h h' o} (inv : Inv x h) (hl : Live h o) (hx : x = none ∨ x = some o) (hi : h.I o = .mark)
    (hrefs : ∀ p ∈ h.refs o, h.I p ≠ .gc ∧ h.I p ≠ .save ∧ ∀ N, h.I p = .new → h.id h.oldHead = .num N → NextLe h N)
    (hm : Moved h h' o h.oldHead) : Inv none h' := by
  obtain ⟨N, hN, hmax⟩ := inv.oldHead_max
  refine hm.inv inv ?_ hl (.inl inv.oldHead_mem) ?_ ?_
  · intro p hp _ hxp
    rcases hx with h1 | h1 <;> rw [h1] at hxp
    · cases hxp
    · injection hxp with h2; exact hp h2.symm
  · intro p hp
    rw [hN]
    split
    · exact .inl ⟨N, rfl, Nat.le_refl _⟩
    · obtain ⟨h1, h2, h3⟩ := hrefs p hp
      exact inv.edge_out hN (inv.refsLive o hl p hp) h1 h2 (fun h => h3 N h hN)
  · intro p hne hp hop
    have he := inv.edge p hp o hop
    rw [hi] at he
    rw [hN]
    unfold Edge at he ⊢
    cases hip : h.I p with
    | num n =>
      rw [hip] at he
      simp only at he ⊢
      rcases he with ⟨m, h1, _⟩ | ⟨_, h1⟩ | ⟨_, h1⟩
      · cases h1
      · rw [hN] at h1; injection h1 with h1; exact .inl ⟨N, rfl, by omega⟩
      · exact .inr (.inr ⟨by simp, h1⟩)
    | gc => trivial
    | mark => trivial
    | save => trivial
    | new => simp

theorem moved_gen_eq {h : Heap} {o g} (hg : h.gen o = g) : ({ h with gen := upd h.gen o g } : Heap) = h := by
  have : upd h.gen o g = h.gen := by funext a; unfold upd; split <;> simp_all
  rw [this]

/-- Setting the generation of an object to mark before its references are followed. -/
theorem toMark_ok {h o} (inv : Inv none h) (hl : Live h o) (hi : h.I o = .gc ∨ h.I o = .save) :
    Inv (some o) { h with gen := upd h.gen o h.mark } := by
  have hIo : ({ h with gen := upd h.gen o h.mark } : Heap).I o = .mark := by
    show h.id (upd h.gen o h.mark o) = .mark
    rw [upd_eq, inv.markId]
  have hIp : ∀ p, p ≠ o → ({ h with gen := upd h.gen o h.mark } : Heap).I p = h.I p := by
    intro p hp
    show h.id (upd h.gen o h.mark p) = _
    rw [upd_ne _ _ hp]; rfl
  exact
  { inv with
    gens := fun p hp => by
      show upd h.gen o h.mark p ∈ h.old ∨ upd h.gen o h.mark p ∈ h.gcs ∨ upd h.gen o h.mark p = h.mark ∨
        upd h.gen o h.mark p = h.save ∨ upd h.gen o h.mark p = h.new
      by_cases he : p = o
      · subst he; rw [upd_eq]; simp
      · rw [upd_ne _ _ he]; exact inv.gens p hp
    rootsOk := fun g p hp => by
      have he : p ≠ o := fun h => hp (by rw [h])
      show p ∈ h.roots g ↔ Live h p ∧ canon h (upd h.gen o h.mark p) = g ∧ 0 < h.refcount p
      rw [upd_ne _ _ he]; exact inv.rootsOk g p (by simp)
    nonRootsOk := fun g p hp => by
      have he : p ≠ o := fun h => hp (by rw [h])
      show p ∈ h.nonRoots g ↔ Live h p ∧ canon h (upd h.gen o h.mark p) = g ∧ h.refcount p = 0
      rw [upd_ne _ _ he]; exact inv.nonRootsOk g p (by simp)
    refsLive := inv.refsLive
    edge := fun p hp q hq => by
      show Edge h (Heap.I _ p) (Heap.I _ q)
      by_cases h1 : p = o
      · subst h1; rw [hIo]; trivial
      · rw [hIp p h1]
        have he := inv.edge p hp q hq
        by_cases h2 : q = o
        · subst h2
          rw [hIo]
          unfold Edge at he ⊢
          cases hip : h.I p with
          | num n =>
            rw [hip] at he
            simp only at he ⊢
            rcases hi with hi | hi <;> rw [hi] at he <;> simp at he
            exact .inr (.inr ⟨by simp, he⟩)
          | gc => trivial
          | mark => trivial
          | save => trivial
          | new => simp
        · rw [hIp q h2]; exact he }

end Verif.TypeHeap
