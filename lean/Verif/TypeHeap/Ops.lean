import Verif.TypeHeap.EndCycle
/-
The operations of the type heap keep the invariant.
-/
namespace Verif.TypeHeap

/-- What the collector leaves alone. -/
structure Same (h h' : Heap) : Prop where
  refcount : h'.refcount = h.refcount
  refs : h'.refs = h.refs
  nextObj : h'.nextObj = h.nextObj

theorem Same.refl (h) : Same h h := ⟨rfl, rfl, rfl⟩
theorem Same.trans {a b c} (s : Same a b) (t : Same b c) : Same a c :=
  ⟨t.refcount.trans s.refcount, t.refs.trans s.refs, t.nextObj.trans s.nextObj⟩

theorem Step.same {h h'} (s : Step h h') : Same h h' := ⟨s.refcount, s.refs, s.nextObj⟩
theorem Moved.same {h h' o g} (s : Moved h h' o g) : Same h h' := ⟨s.refcount, s.refs, s.nextObj⟩

/-- One step of the collector: live objects stay alive unless they are found unreachable. -/
structure Good (h h' : Heap) : Prop where
  inv : Inv none h'
  same : Same h h'
  live : ∀ o, Live h' o → Live h o
  keep : ∀ o, Live h o → 0 < h.refcount o → Live h' o

theorem Good.trans {a b c} (s : Good a b) (t : Good b c) : Good a c :=
  ⟨t.inv, s.same.trans t.same, fun o h => s.live o (t.live o h), fun o h hr => t.keep o (s.keep o h hr) (by rw [s.same.refcount]; exact hr)⟩

theorem Good.of_iff {h h'} (inv : Inv none h') (same : Same h h') (hl : ∀ o, Live h' o ↔ Live h o) : Good h h' :=
  ⟨inv, same, fun o h => (hl o).mp h, fun o h _ => (hl o).mpr h⟩

theorem freeFirst_good {h} (inv : Inv none h) : Good h (freeFirst h) := by
  obtain ⟨h1, h2⟩ := freeFirst_ok inv
  refine Good.of_iff h1 ?_ h2
  unfold freeFirst
  split <;> exact ⟨rfl, rfl, rfl⟩

theorem startOld_good {h} (inv : Inv none h) (hm : ∀ o, Live h o → h.I o ≠ .mark) : Good h (startOld h) := by
  obtain ⟨h1, h2⟩ := startOld_ok inv hm
  refine Good.of_iff h1 ?_ h2
  unfold startOld
  split <;> exact ⟨rfl, rfl, rfl⟩

theorem startOld_same (h : Heap) : (startOld h).mark = h.mark ∧ (startOld h).gcHead = h.gcHead ∧ (startOld h).save = h.save := by
  unfold startOld
  split <;> exact ⟨rfl, rfl, rfl⟩

theorem typeRefs_same {x h src} (inv : Inv x h) (ls : Live h src) (hx : ∀ o, x = some o → h.I o = .mark) : Step h (typeRefs h src) :=
  (typeRefs_ok inv ls hx).2.1

theorem endCycle_good {h : Heap} (inv : Inv none h) (hmark : ∀ o, Live h o → h.I o ≠ .mark) (hsave : ∀ o, Live h o → h.I o ≠ .save)
    (hroots : h.roots h.gcHead = []) : Good h (endCycle h) := by
  obtain ⟨A, B, _, _, _, e⟩ := endCycle_char inv
  obtain ⟨h1, h2⟩ := endCycle_ok inv hmark hsave hroots
  refine ⟨h1, ⟨e.refcount, e.refs, e.nextObj⟩, fun o h => ((h2 o).mp h).1, fun o hl hr => (h2 o).mpr ⟨hl, ?_⟩⟩
  intro hgc
  have hc : canon h (h.gen o) = h.gcHead := by unfold canon; unfold Heap.I at hgc; rw [if_pos hgc]
  have := (inv.rootsOk _ o (by simp)).mpr ⟨hl, hc, hr⟩
  rw [hroots] at this; simp at this

theorem markRootsFront {h : Heap} {o g} (hr : 0 < h.refcount o) (hg : g = h.oldHead) :
    Moved h (toRootsFront { h with gen := upd h.gen o h.oldHead } ({ h with gen := upd h.gen o h.oldHead } : Heap).oldHead o) o g := by
  subst hg; exact moved_rootsFront hr

theorem incrGc3_good {h : Heap} (inv : Inv none h) (hmark : ∀ o, Live h o → h.I o ≠ .mark) : Good h (incrGc3 h).1 := by
  have rootCase : ∀ o, Live h o → 0 < h.refcount o → (h.I o = .gc ∨ h.I o = .save) → Good h
      (let h := { h with gen := upd h.gen o h.mark }
       let h := typeRefs h o
       let h := { h with gen := upd h.gen o h.oldHead }
       (toRootsFront h h.oldHead o, false)).1 := by
    intro o hl hr hi
    have i1 := toMark_ok inv hl hi
    have hst := typeRefs_same i1 hl (by
      intro p hp
      injection hp with hp
      subst hp
      show h.id (upd h.gen o h.mark o) = .mark
      rw [upd_eq, inv.markId])
    have hm := markRootsFront (h := typeRefs { h with gen := upd h.gen o h.mark } o) (o := o) (g := h.oldHead)
      (by rw [hst.refcount]; exact hr) hst.oldHead.symm
    obtain ⟨h1, h2⟩ := rootStep_ok inv hl hi hm
    refine Good.of_iff h1 ?_ h2
    have h3 := hst.same.trans hm.same
    exact ⟨h3.refcount, h3.refs, h3.nextObj⟩
  unfold incrGc3
  split
  · rename_i o l hl
    obtain ⟨h1, h2, h3⟩ := inv.of_root (o := o) (g := h.gcHead) (by rw [hl]; simp)
    rw [inv.gcId _ inv.gcHead_mem] at h2
    exact rootCase o h1 h3 (.inl h2)
  · rename_i hgc
    split
    · rename_i o l hl
      obtain ⟨h1, h2, h3⟩ := inv.of_root (o := o) (g := h.save) (by rw [hl]; simp)
      rw [inv.saveId] at h2
      exact rootCase o h1 h3 (.inr h2)
    · rename_i hsr
      split
      · rename_i o l hl
        obtain ⟨h1, h2, h3⟩ := inv.of_nonRoot (o := o) (g := h.save) (by rw [hl]; simp)
        rw [inv.saveId] at h2
        have hst := typeRefs_same inv h1 (by simp)
        have hm : Moved (typeRefs h o) (toNonRootsFront { typeRefs h o with gen := upd (typeRefs h o).gen o (typeRefs h o).new }
            (typeRefs h o).new o) o (typeRefs h o).new := moved_nonRootsFront (by rw [hst.refcount]; exact h3)
        obtain ⟨h4, h5⟩ := saveStep_ok inv h1 h2 (by rw [← hst.new]; exact hm)
        exact Good.of_iff h4 (hst.same.trans hm.same) h5
      · rename_i hsn
        exact endCycle_good inv hmark (inv.noSave hsn hsr) hgc

theorem incrGc2_good {h : Heap} (inv : Inv none h) : Good h (incrGc2 h).1 := by
  unfold incrGc2
  split
  · rename_i o l hl
    obtain ⟨h1, h2, h3⟩ := inv.of_nonRoot (o := o) (g := h.mark) (by rw [hl]; simp)
    rw [inv.markId] at h2
    have hst := typeRefs_same inv h1 (by simp)
    have hm : Moved (typeRefs h o) (toNonRootsBack { typeRefs h o with gen := upd (typeRefs h o).gen o (typeRefs h o).oldHead }
        (typeRefs h o).oldHead o) o (typeRefs h o).oldHead := moved_nonRootsBack (by rw [hst.refcount]; exact h3)
    obtain ⟨h4, h5⟩ := markStep_ok inv h1 h2 (.inl rfl) (by rw [← hst.oldHead]; exact hm)
    exact Good.of_iff h4 (hst.same.trans hm.same) h5
  · rename_i hn
    split
    · rename_i o l hl
      obtain ⟨h1, h2, h3⟩ := inv.of_root (o := o) (g := h.mark) (by rw [hl]; simp)
      rw [inv.markId] at h2
      have hst := typeRefs_same inv h1 (by simp)
      have hm : Moved (typeRefs h o) (toRootsBack { typeRefs h o with gen := upd (typeRefs h o).gen o (typeRefs h o).oldHead }
          (typeRefs h o).oldHead o) o (typeRefs h o).oldHead := moved_rootsBack (by rw [hst.refcount]; exact h3)
      obtain ⟨h4, h5⟩ := markStep_ok inv h1 h2 (.inl rfl) (by rw [← hst.oldHead]; exact hm)
      exact Good.of_iff h4 (hst.same.trans hm.same) h5
    · rename_i hr
      have hnm := inv.noMark hn hr
      have s := startOld_good inv hnm
      refine s.trans (incrGc3_good s.inv ?_)
      intro o ho hi
      have hg := s.inv.zone_mark ho hi
      apply hnm o (s.live o ho)
      have : (startOld h).gen o = h.gen o := by unfold startOld; split <;> rfl
      rw [this, (startOld_same h).1] at hg
      unfold Heap.I
      rw [hg]; exact inv.markId

theorem incrGc_good {h : Heap} (inv : Inv none h) : Good h (incrGc h).1 := by
  have g1 := freeFirst_good inv
  have g2 := freeFirst_good g1.inv
  exact (g1.trans g2).trans (incrGc2_good g2.inv)

/-! ### The operations -/

theorem newHeap_inv : Inv none newHeap := by
  constructor <;> simp [newHeap, Live, NextLe, Edge]
  all_goals (try (intro g h1; simp at h1; rcases h1 with rfl | rfl | rfl | rfl | rfl <;> simp))

theorem addObj_ok {h : Heap} (inv : Inv none h) :
    Inv none { h with
      roots := upd h.roots h.new (h.nextObj :: h.roots h.new)
      gen := upd h.gen h.nextObj h.new
      refcount := upd h.refcount h.nextObj 1
      refs := upd h.refs h.nextObj []
      nextObj := h.nextObj + 1 } := by
  have hnl : ¬ Live h h.nextObj := fun h1 => Nat.lt_irrefl _ h1.1
  have hne : ∀ p, Live h p → p ≠ h.nextObj := fun p hp h1 => hnl (h1 ▸ hp)
  have hnf : h.nextObj ∉ h.freed := fun h1 => Nat.lt_irrefl _ (inv.freedOk _ h1).1
  have hnfree : h.nextObj ∉ h.free := fun h1 => Nat.lt_irrefl _ (inv.freeOk _ h1).1
  have hlive : ∀ p, (p < h.nextObj + 1 ∧ p ∉ h.freed ∧ p ∉ h.free) ↔ (p = h.nextObj ∨ Live h p) := by
    intro p
    unfold Live
    rw [Nat.lt_succ_iff, Nat.le_iff_lt_or_eq]
    constructor
    · rintro ⟨h1 | h1, h2⟩
      · exact .inr ⟨h1, h2⟩
      · exact .inl h1
    · rintro (h1 | ⟨h1, h2⟩)
      · subst h1; exact ⟨.inr rfl, hnf, hnfree⟩
      · exact ⟨.inl h1, h2⟩
  have hcn : canon h h.new = h.new := by unfold canon; rw [inv.newId]; simp
  exact
  { inv with
    gens := fun p hp => by
      show upd h.gen h.nextObj h.new p ∈ h.old ∨ upd h.gen h.nextObj h.new p ∈ h.gcs ∨ upd h.gen h.nextObj h.new p = h.mark ∨
        upd h.gen h.nextObj h.new p = h.save ∨ upd h.gen h.nextObj h.new p = h.new
      rcases (hlive p).mp hp with h1 | h1
      · rw [h1, upd_eq]; simp
      · rw [upd_ne _ _ (hne p h1)]; exact inv.gens p h1
    rootsOk := fun g p _ => by
      show p ∈ upd h.roots h.new (h.nextObj :: h.roots h.new) g ↔
        (p < h.nextObj + 1 ∧ p ∉ h.freed ∧ p ∉ h.free) ∧ canon h (upd h.gen h.nextObj h.new p) = g ∧ 0 < upd h.refcount h.nextObj 1 p
      rw [hlive]
      have h0 := inv.rootsOk g p (by simp)
      by_cases hp : p = h.nextObj
      · subst hp
        simp only [upd_eq, hcn, true_or, true_and, Nat.lt_add_one, and_true]
        unfold upd
        split
        · rename_i h1; simp [h1]
        · rename_i h1
          constructor
          · intro h2; exact absurd (h0.mp h2).1 hnl
          · intro h2; exact absurd h2.symm h1
      · rw [upd_ne _ _ hp, upd_ne _ _ hp]
        simp only [hp, false_or]
        rw [← h0]
        unfold upd
        split
        · rename_i h1; simp [h1, hp]
        · rfl
    nonRootsOk := fun g p _ => by
      show p ∈ h.nonRoots g ↔
        (p < h.nextObj + 1 ∧ p ∉ h.freed ∧ p ∉ h.free) ∧ canon h (upd h.gen h.nextObj h.new p) = g ∧ upd h.refcount h.nextObj 1 p = 0
      rw [hlive]
      have h0 := inv.nonRootsOk g p (by simp)
      by_cases hp : p = h.nextObj
      · subst hp
        simp only [upd_eq]
        simp only [Nat.one_ne_zero, and_false, iff_false]
        intro h2; exact absurd (h0.mp h2).1 hnl
      · rw [upd_ne _ _ hp, upd_ne _ _ hp]
        simp only [hp, false_or]
        exact h0
    ndRoots := fun g => by
      show (upd h.roots h.new (h.nextObj :: h.roots h.new) g).Nodup
      unfold upd
      split
      · exact List.nodup_cons.mpr ⟨(inv.not_root (by simp) hnl _).1, inv.ndRoots _⟩
      · exact inv.ndRoots g
    freeOk := fun p hp => by
      obtain ⟨h1, h2, h3⟩ := inv.freeOk p hp
      refine ⟨Nat.lt_succ_of_lt h1, h2, ?_⟩
      show upd h.refcount h.nextObj 1 p = 0
      rw [upd_ne _ _ (Nat.ne_of_lt h1)]; exact h3
    freedOk := fun p hp => by
      obtain ⟨h1, h3⟩ := inv.freedOk p hp
      refine ⟨Nat.lt_succ_of_lt h1, ?_⟩
      show upd h.refcount h.nextObj 1 p = 0
      rw [upd_ne _ _ (Nat.ne_of_lt h1)]; exact h3
    unborn := fun p hp => by
      show upd h.refcount h.nextObj 1 p = 0
      rw [upd_ne _ _ (Nat.ne_of_gt hp)]; exact inv.unborn p (Nat.le_of_succ_le hp)
    refsLive := fun p hp q hq => by
      have hq : q ∈ upd h.refs h.nextObj [] p := hq
      refine (hlive q).mpr ?_
      rcases (hlive p).mp hp with h1 | h1
      · rw [h1, upd_eq] at hq; simp at hq
      · rw [upd_ne _ _ (hne p h1)] at hq
        exact .inr (inv.refsLive p h1 q hq)
    edge := fun p hp q hq => by
      have hq : q ∈ upd h.refs h.nextObj [] p := hq
      rcases (hlive p).mp hp with h1 | h1
      · rw [h1, upd_eq] at hq; simp at hq
      · rw [upd_ne _ _ (hne p h1)] at hq
        have hq' := inv.refsLive p h1 q hq
        show Edge h (h.id (upd h.gen h.nextObj h.new p)) (h.id (upd h.gen h.nextObj h.new q))
        rw [upd_ne _ _ (hne p h1), upd_ne _ _ (hne q hq')]
        exact inv.edge p h1 q hq }

theorem canonical_eq {h : Heap} {o} (hg : h.gen o ∉ h.freedGens) : canonical h o = { h with gen := upd h.gen o (canon h (h.gen o)) } := by
  unfold canonical
  rw [touchGen_eq hg]
  simp only [beq_iff_eq]
  unfold canon
  split
  · rfl
  · have : upd h.gen o (h.gen o) = h.gen := by funext a; unfold upd; split <;> simp_all
    rw [this]

/-- Changing the count of an object and moving it to the right list of its generation. -/
theorem recount_ok {h h' : Heap} {o c} (inv : Inv none h) (hl : Live h o)
    (hm : Moved { h with refcount := upd h.refcount o c } h' o (canon h (h.gen o))) : Inv none h' := by
  have hIo : h.id (canon h (h.gen o)) = h.I o := (inv.canon_I rfl).symm
  have hpre : Inv (some o) { h with refcount := upd h.refcount o c } :=
    { inv with
      gens := inv.gens
      rootsOk := fun g p hp => by
        have he : p ≠ o := fun h => hp (by rw [h])
        show p ∈ h.roots g ↔ Live h p ∧ canon h (h.gen p) = g ∧ 0 < upd h.refcount o c p
        rw [upd_ne _ _ he]; exact inv.rootsOk g p (by simp)
      nonRootsOk := fun g p hp => by
        have he : p ≠ o := fun h => hp (by rw [h])
        show p ∈ h.nonRoots g ↔ Live h p ∧ canon h (h.gen p) = g ∧ upd h.refcount o c p = 0
        rw [upd_ne _ _ he]; exact inv.nonRootsOk g p (by simp)
      freeOk := fun p hp => by
        obtain ⟨h1, h2, h3⟩ := inv.freeOk p hp
        refine ⟨h1, h2, ?_⟩
        show upd h.refcount o c p = 0
        rw [upd_ne _ _ (by rintro rfl; exact hl.2.2 hp)]; exact h3
      freedOk := fun p hp => by
        obtain ⟨h1, h3⟩ := inv.freedOk p hp
        refine ⟨h1, ?_⟩
        show upd h.refcount o c p = 0
        rw [upd_ne _ _ (by rintro rfl; exact hl.2.1 hp)]; exact h3
      unborn := fun p hp => by
        show upd h.refcount o c p = 0
        rw [upd_ne _ _ (by rintro rfl; exact absurd hl.1 (Nat.not_lt.mpr hp))]; exact inv.unborn p hp
      refsLive := inv.refsLive
      edge := inv.edge }
  refine hm.inv hpre (fun p hp _ h1 => by injection h1 with h1; exact hp h1.symm) hl ?_ ?_ ?_
  · show canon h (h.gen o) ∈ h.old ∨ canon h (h.gen o) = h.gcHead ∨ canon h (h.gen o) = h.mark ∨ canon h (h.gen o) = h.save ∨ canon h (h.gen o) = h.new
    unfold canon
    split
    · simp
    · rename_i hne
      rcases inv.gens o hl with h1 | h1 | h1
      · exact .inl h1
      · exact absurd (inv.gcId _ h1) hne
      · exact .inr (.inr h1)
  · intro p hp
    have he := inv.edge o hl p hp
    show Edge h (h.id (canon h (h.gen o))) (if p = o then h.id (canon h (h.gen o)) else h.I p)
    rw [hIo]
    split
    · rename_i h1; subst h1; exact he
    · exact he
  · intro p hne hp hop
    show Edge h (h.I p) (h.id (canon h (h.gen o)))
    rw [hIo]
    exact inv.edge p hp o hop

/-- Changing the count of a root that stays a root. -/
theorem recount_root {h : Heap} {o c} (inv : Inv none h) (hl : Live h o) (h0 : 0 < h.refcount o) (hc : 0 < c) :
    Inv none { h with refcount := upd h.refcount o c } := by
  have hpos : ∀ p, 0 < upd h.refcount o c p ↔ 0 < h.refcount p := by
    intro p; unfold upd; split
    · rename_i h1; subst h1; simp [hc, h0]
    · rfl
  have hz : ∀ p, upd h.refcount o c p = 0 ↔ h.refcount p = 0 := by
    intro p; unfold upd; split
    · rename_i h1; subst h1; omega
    · rfl
  exact
  { inv with
    gens := inv.gens
    rootsOk := fun g p hp => by
      show p ∈ h.roots g ↔ Live h p ∧ canon h (h.gen p) = g ∧ 0 < upd h.refcount o c p
      rw [hpos]; exact inv.rootsOk g p hp
    nonRootsOk := fun g p hp => by
      show p ∈ h.nonRoots g ↔ Live h p ∧ canon h (h.gen p) = g ∧ upd h.refcount o c p = 0
      rw [hz]; exact inv.nonRootsOk g p hp
    freeOk := fun p hp => by
      obtain ⟨h1, h2, h3⟩ := inv.freeOk p hp
      exact ⟨h1, h2, (hz p).mpr h3⟩
    freedOk := fun p hp => by
      obtain ⟨h1, h3⟩ := inv.freedOk p hp
      exact ⟨h1, (hz p).mpr h3⟩
    unborn := fun p hp => (hz p).mpr (inv.unborn p hp)
    refsLive := inv.refsLive
    edge := inv.edge }

theorem retain_ok {h : Heap} {o} (inv : Inv none h) (hl : Live h o) :
    Inv none (retainType h o) ∧ (retainType h o).refcount = upd h.refcount o (h.refcount o + 1) ∧ (retainType h o).refs = h.refs ∧
    (retainType h o).nextObj = h.nextObj := by
  unfold retainType
  rw [touch_eq hl.2.1]
  have hg : h.gen o ∉ h.freedGens := (inv.ltGen _ (inv.gens o hl)).2
  simp only
  split
  · rename_i h0
    rw [canonical_eq (h := { h with refcount := upd h.refcount o (h.refcount o + 1) }) hg]
    have hm : Moved { h with refcount := upd h.refcount o (h.refcount o + 1) }
        (toRootsBack { h with refcount := upd h.refcount o (h.refcount o + 1), gen := upd h.gen o (canon h (h.gen o)) } (canon h (h.gen o)) o)
        o (canon h (h.gen o)) :=
      moved_rootsBack (by show 0 < upd h.refcount o (h.refcount o + 1) o; rw [upd_eq]; omega)
    have := recount_ok inv hl hm
    have hgo : upd h.gen o (canon h (h.gen o)) o = canon h (h.gen o) := upd_eq _ _ _
    refine ⟨?_, rfl, rfl, rfl⟩
    show Inv none (toRootsBack _ (upd h.gen o (canon h (h.gen o)) o) o)
    rw [hgo]
    exact this
  · rename_i h0
    exact ⟨recount_root inv hl (by omega) (by omega), rfl, rfl, rfl⟩

theorem release_ok {h : Heap} {o} (inv : Inv none h) (hl : Live h o) (hr : 0 < h.refcount o) :
    Inv none (releaseType h o) ∧ (releaseType h o).refcount = upd h.refcount o (h.refcount o - 1) ∧ (releaseType h o).refs = h.refs ∧
    (releaseType h o).nextObj = h.nextObj := by
  unfold releaseType
  rw [touch_eq hl.2.1]
  have hg : h.gen o ∉ h.freedGens := (inv.ltGen _ (inv.gens o hl)).2
  simp only
  split
  · rename_i h0
    rw [canonical_eq (h := { h with refcount := upd h.refcount o (h.refcount o - 1) }) hg]
    simp only
    have hm : Moved { h with refcount := upd h.refcount o (h.refcount o - 1) }
        (toNonRootsBack { h with refcount := upd h.refcount o (h.refcount o - 1), gen := upd h.gen o (canon h (h.gen o)) } (canon h (h.gen o)) o)
        o (canon h (h.gen o)) :=
      moved_nonRootsBack (by show upd h.refcount o (h.refcount o - 1) o = 0; rw [upd_eq]; exact h0)
    have hi := recount_ok inv hl hm
    have hgo : upd h.gen o (canon h (h.gen o)) o = canon h (h.gen o) := upd_eq _ _ _
    have hcc : canon { h with refcount := upd h.refcount o (h.refcount o - 1) } (h.gen o) = canon h (h.gen o) := rfl
    rw [hcc]
    rw [hgo]
    split
    · rename_i hc
      simp only [Bool.and_eq_true] at hc
      refine ⟨?_, rfl, rfl, rfl⟩
      obtain ⟨⟨c1, c2⟩, _⟩ := hc
      obtain ⟨N, hN, _⟩ := inv.oldHead_max
      have c2' : (h.id (canon h (h.gen o))).le (h.id h.oldHead) = true := c2
      have c1' : (h.id (canon h (h.gen o))).lt (h.id h.next) = true := c1
      have hnum : ∃ n, h.I o = .num n := by
        rw [inv.canon_I rfl]
        cases hi : h.id (canon h (h.gen o)) with
        | num n => exact ⟨n, rfl⟩
        | _ => rw [hi, hN] at c2'; simp [Id.le, Id.lt, Id.special] at c2'
      obtain ⟨n, hn⟩ := hnum
      have hmem := inv.zone_old hl hn
      have hcg : canon h (h.gen o) = h.gen o := by
        unfold canon; unfold Heap.I at hn; rw [hn]; simp
      rw [hcg] at hi ⊢
      rw [hcg] at c1'
      refine Inv.setNext hi hmem ?_
      rintro k ⟨m, hm, hk⟩
      have hm : h.id h.next = .num m := hm
      have hn' : h.id (h.gen o) = .num n := hn
      refine ⟨n, hn', ?_⟩
      rw [hn', hm, Id.lt_num] at c1'
      omega
    · exact ⟨hi, rfl, rfl, rfl⟩
  · rename_i h0
    exact ⟨recount_root inv hl hr (by omega), rfl, rfl, rfl⟩

/-- With other references. -/
def withRefs (R : Obj → List Obj) (h : Heap) : Heap := { h with refs := R }

theorem addRef_refs (h : Heap) (R : Obj → List Obj) (a b : Obj) : addRef (withRefs R h) a b = withRefs R (addRef h a b) := by
  have h1 : ∀ h : Heap, addRefNext (withRefs R h) a b = withRefs R (addRefNext h a b) := by
    intro h
    unfold addRefNext
    simp only [apply_ite (withRefs R)]
    rfl
  have h3 : ∀ h o, touch (withRefs R h) o = withRefs R (touch h o) := fun _ _ => rfl
  have h4 : ∀ h g, touchGen (withRefs R h) g = withRefs R (touchGen h g) := fun _ _ => rfl
  have h5 : ∀ h, (withRefs R h).gen = h.gen := fun _ => rfl
  unfold addRef
  simp only [h3, h4, h1, h5]
  generalize addRefNext _ a b = k
  have h2 : moveTo (withRefs R k) a b = moveTo k a b := rfl
  rw [h2]
  cases moveTo k a b with
  | none => rfl
  | some g =>
    simp only [apply_ite (withRefs R)]
    rfl

theorem store_ok {h : Heap} {a b} (inv : Inv none h) (la : Live h a) (lb : Live h b) :
    Inv none (storeRef h a b) ∧ (storeRef h a b).refcount = h.refcount ∧ (storeRef h a b).refs = upd h.refs a (h.refs a ++ [b]) ∧
    (storeRef h a b).nextObj = h.nextObj := by
  have h0 : storeRef h a b = withRefs (upd h.refs a (h.refs a ++ [b])) (addRef h a b) := addRef_refs h _ a b
  rw [h0]
  obtain ⟨i, s, _, _, _, he⟩ := addRef_ok inv la lb (by simp)
  refine ⟨?_, s.refcount, rfl, s.nextObj⟩
  generalize addRef h a b = k at i s he
  exact
  { i with
    gens := i.gens
    rootsOk := i.rootsOk
    nonRootsOk := i.nonRootsOk
    refsLive := fun p hp q hq => by
      have hq : q ∈ upd h.refs a (h.refs a ++ [b]) p := hq
      by_cases h1 : p = a
      · subst h1
        rw [upd_eq] at hq
        rcases List.mem_append.mp hq with h2 | h2
        · exact i.refsLive p hp q (by rw [s.refs]; exact h2)
        · simp at h2; subst h2; exact (s.live _).mpr lb
      · rw [upd_ne _ _ h1] at hq
        exact i.refsLive p hp q (by rw [s.refs]; exact hq)
    edge := fun p hp q hq => by
      have hq : q ∈ upd h.refs a (h.refs a ++ [b]) p := hq
      by_cases h1 : p = a
      · subst h1
        rw [upd_eq] at hq
        rcases List.mem_append.mp hq with h2 | h2
        · exact i.edge p hp q (by rw [s.refs]; exact h2)
        · simp at h2; subst h2; exact he
      · rw [upd_ne _ _ h1] at hq
        exact i.edge p hp q (by rw [s.refs]; exact hq) }

theorem alloc_ok {h : Heap} (inv : Inv none h) :
    Inv none (allocType h) ∧ (allocType h).refcount = upd h.refcount h.nextObj 1 ∧ (allocType h).refs = upd h.refs h.nextObj [] ∧
    (allocType h).nextObj = h.nextObj + 1 := by
  have g := incrGc_good inv
  refine ⟨addObj_ok g.inv, ?_, ?_, ?_⟩
  · show upd (incrGc h).1.refcount (incrGc h).1.nextObj 1 = _; rw [g.same.refcount, g.same.nextObj]
  · show upd (incrGc h).1.refs (incrGc h).1.nextObj [] = _; rw [g.same.refs, g.same.nextObj]
  · show (incrGc h).1.nextObj + 1 = _; rw [g.same.nextObj]

theorem round_good {h h' : Heap} (n) (inv : Inv none h) (hr : round n h = some h') : Good h h' := by
  induction n generalizing h with
  | zero => simp [round] at hr
  | succ n ih =>
    have g := incrGc_good inv
    unfold round at hr
    split at hr
    · rename_i k hk
      rw [hk] at g
      injection hr with hr
      subst hr
      exact g
    · rename_i k hk
      rw [hk] at g
      exact g.trans (ih g.inv hr)

theorem drain_good {h : Heap} (n) (inv : Inv none h) : Good h (drain n h) := by
  induction n generalizing h with
  | zero => exact ⟨inv, Same.refl _, fun _ h => h, fun _ h _ => h⟩
  | succ n ih =>
    have g := freeFirst_good inv
    exact g.trans (ih g.inv)

theorem fullLoop_good {h h' : Heap} (n) (inv : Inv none h) (hr : fullLoop n h = some h') : Good h h' := by
  induction n generalizing h with
  | zero => simp [fullLoop] at hr
  | succ n ih =>
    unfold fullLoop at hr
    split at hr
    · cases hr
    · rename_i k hk
      have g := round_good _ inv hk
      split at hr
      · injection hr with hr; subst hr; exact g
      · have d := drain_good k.free.length g.inv
        exact (g.trans d).trans (ih d.inv hr)

theorem fullGc_good {h h' : Heap} {n} (inv : Inv none h) (hr : fullGc n h = some h') : Good h h' := by
  unfold fullGc at hr
  split at hr
  · cases hr
  · rename_i k hk
    have g := round_good _ inv hk
    exact g.trans (fullLoop_good _ g.inv hr)

end Verif.TypeHeap
