import Verif.TypeHeap.Comp2
/-
A full collection ends, and then exactly the needed types are left.
-/
namespace Verif.TypeHeap

/-- Nothing is in save or new and the next cycle collects no old generation. -/
structure Quiet (h : Heap) : Prop where
  noNew : ∀ o, Live h o → h.I o ≠ .new
  noSave : ∀ o, Live h o → h.I o ≠ .save
  next : h.next = h.new

/-- Everything is in an old generation. -/
def AllOld (h : Heap) : Prop := ∀ o, Live h o → ∃ n, h.I o = .num n

theorem addRef_quiet {x h src dst} (inv : Inv x h) (ls : Live h src) (ld : Live h dst) (hx : ∀ o, x = some o → h.I o = .mark)
    (hs : h.I src = .mark) (q : Quiet h) : Quiet (addRef h src dst) := by
  have e := addRef_eff inv ls ld
  obtain ⟨_, s, _⟩ := addRef_ok inv ls ld hx
  generalize addRef h src dst = h' at e s
  have hI : ∀ p, h'.I p = h.I p ∨ h'.I p = .mark := by
    intro p
    unfold Heap.I
    rw [s.id]
    rcases e.eff with ⟨h1, _⟩ | ⟨_, _, ⟨h1, _⟩ | ⟨_, h1⟩⟩
    · rw [h1]; exact .inl rfl
    · rw [h1]
      unfold upd
      split
      · exact .inr inv.markId
      · exact .inl rfl
    · exact absurd hs h1
  refine ⟨fun o ho => ?_, fun o ho => ?_, ?_⟩
  · rw [s.live] at ho
    rcases hI o with h1 | h1 <;> rw [h1]
    · exact q.noNew o ho
    · simp
  · rw [s.live] at ho
    rcases hI o with h1 | h1 <;> rw [h1]
    · exact q.noSave o ho
    · simp
  · rw [e.quiet hs (q.noNew dst ld), s.new]; exact q.next

theorem foldRefs_quiet {x src} (ps : List Obj) : ∀ {h}, Inv x h → Live h src → (∀ p ∈ ps, Live h p) → (∀ o, x = some o → h.I o = .mark) →
    h.I src = .mark → Quiet h → Quiet (ps.foldl (fun h p => addRef h src p) h) := by
  induction ps with
  | nil => intro h _ _ _ _ _ q; exact q
  | cons p ps ih =>
    intro h inv ls hl hx hs q
    obtain ⟨i1, s1, s2, _⟩ := addRef_ok inv ls (hl p (by simp)) hx
    rw [List.foldl_cons]
    exact ih i1 ((s1.live _).mpr ls) (fun q hq => (s1.live _).mpr (hl q (List.mem_cons_of_mem _ hq))) (by
      intro o ho
      have := hx o ho
      rw [s1.keepI (by rw [this]; simp) (by rw [this]; simp)]; exact this) (s2.trans hs) (addRef_quiet inv ls (hl p (by simp)) hx hs q)

theorem typeRefs_quiet {x h src} (inv : Inv x h) (ls : Live h src) (hx : ∀ o, x = some o → h.I o = .mark) (hs : h.I src = .mark) (q : Quiet h) :
    Quiet (typeRefs h src) := by
  unfold typeRefs
  rw [touch_eq ls.2.1]
  exact foldRefs_quiet _ inv ls (inv.refsLive src ls) hx hs q

theorem Moved.quiet {x h h' o g} (hm : Moved h h' o g) (inv : Inv x h) (hl : Live h o) (hg : g ∈ h.old) (q : Quiet h) : Quiet h' := by
  obtain ⟨n, hn⟩ := inv.oldNum g hg
  refine ⟨fun p hp => ?_, fun p hp => ?_, by rw [hm.next, hm.new]; exact q.next⟩
  · rw [hm.live hl] at hp
    rw [hm.I]
    split
    · rw [hn]; simp
    · exact q.noNew p hp
  · rw [hm.live hl] at hp
    rw [hm.I]
    split
    · rw [hn]; simp
    · exact q.noSave p hp

theorem freeFirst_fields (h : Heap) : (freeFirst h).gen = h.gen ∧ (freeFirst h).id = h.id ∧ (freeFirst h).next = h.next ∧ (freeFirst h).new = h.new := by
  unfold freeFirst
  split <;> exact ⟨rfl, rfl, rfl, rfl⟩

theorem freeFirst_I (h : Heap) (o) : (freeFirst h).I o = h.I o := by
  unfold Heap.I; rw [(freeFirst_fields h).1, (freeFirst_fields h).2.1]

theorem freeFirst_quiet {h} (inv : Inv none h) (q : Quiet h) : Quiet (freeFirst h) := by
  have hl := (freeFirst_ok inv).2
  refine ⟨fun o ho => ?_, fun o ho => ?_, ?_⟩
  · rw [freeFirst_I]; exact q.noNew o ((hl o).mp ho)
  · rw [freeFirst_I]; exact q.noSave o ((hl o).mp ho)
  · rw [(freeFirst_fields h).2.2.1, (freeFirst_fields h).2.2.2]; exact q.next

theorem startOld_I {h} (inv : Inv none h) {o} (hl : Live h o) : (startOld h).I o = h.I o := by
  rcases startOld_cases h with ⟨h1, _⟩ | h1
  · rw [h1]
  · have hne : h.gen o ≠ h.nextGen := by
      intro he
      have := (inv.ltGen _ (inv.gens o hl)).1
      rw [he] at this
      exact Nat.lt_irrefl _ this
    rw [h1]
    exact upd_ne _ _ hne

theorem startOld_next (h : Heap) : (startOld h).next = h.next ∧ (startOld h).new = h.new ∧ (startOld h).free = h.free := by
  unfold startOld
  split <;> exact ⟨rfl, rfl, rfl⟩

theorem startOld_quiet {h} (inv : Inv none h) (hm : ∀ o, Live h o → h.I o ≠ .mark) (q : Quiet h) : Quiet (startOld h) := by
  have hl := (startOld_ok inv hm).2
  refine ⟨fun o ho => ?_, fun o ho => ?_, ?_⟩
  · rw [hl] at ho; rw [startOld_I inv ho]; exact q.noNew o ho
  · rw [hl] at ho; rw [startOld_I inv ho]; exact q.noSave o ho
  · rw [(startOld_next h).1, (startOld_next h).2.1]; exact q.next

theorem endCycle_quiet {h : Heap} (inv : Inv none h) (hmark : ∀ o, Live h o → h.I o ≠ .mark) (hsave : ∀ o, Live h o → h.I o ≠ .save)
    (hroots : h.roots h.gcHead = []) : Quiet (endCycle h) ∧ (Quiet h → AllOld (endCycle h)) := by
  obtain ⟨A, B, sAB, ⟨pre, hpre⟩, hhead, e⟩ := endCycle_char inv
  obtain ⟨inv', hlive⟩ := endCycle_ok inv hmark hsave hroots
  generalize endCycle h = h' at e hlive inv'
  have hnd := inv.genList
  have inB : ∀ g ∈ B, g ∈ h.new :: h.old := fun g hg => by rw [← sAB]; exact List.mem_append_right _ hg
  have inA : ∀ g ∈ A, g ∈ h.new :: h.old := fun g hg => by rw [← sAB]; exact List.mem_append_left _ hg
  rw [← sAB] at hnd
  have hdisj : ∀ g ∈ B, g ∉ A := fun g hb ha => (List.nodup_append.mp hnd).2.2 g ha g hb rfl
  have hnewA : h.new ∈ A := List.mem_of_mem_head? hhead
  have hlt : ∀ g ∈ h.new :: h.old, g < h.nextGen := by
    intro g hg
    rcases List.mem_cons.mp hg with h1 | h1
    · exact (inv.ltGen _ (.inr (.inr (.inr (.inr h1))))).1
    · exact (inv.ltGen _ (.inl h1)).1
  have hz : ∀ o, Live h' o → (h.gen o ∈ A ∧ h'.I o = .gc) ∨ ∃ n, h'.I o = .num n := by
    intro o ho
    obtain ⟨h1, h2⟩ := (hlive o).mp ho
    rcases endCycle_zone inv hmark hsave sAB h1 h2 with h3 | h3
    · left
      refine ⟨h3, ?_⟩
      unfold Heap.I; rw [e.gen, e.id _ (hlt _ (inA _ h3)), if_pos h3]
    · right
      have hI : h'.I o = h.I o := by unfold Heap.I; rw [e.gen, e.id _ (hlt _ (inB _ h3)), if_neg (hdisj _ h3)]
      rw [hI]
      rcases List.mem_cons.mp (inB _ h3) with h4 | h4
      · exact absurd (by rw [h4]; exact hnewA) (hdisj _ h3)
      · exact inv.oldNum _ h4
  refine ⟨⟨fun o ho => ?_, fun o ho => ?_, e.next⟩, fun q o ho => ?_⟩
  · rcases hz o ho with ⟨_, h1⟩ | ⟨n, h1⟩ <;> rw [h1] <;> simp
  · rcases hz o ho with ⟨_, h1⟩ | ⟨n, h1⟩ <;> rw [h1] <;> simp
  · rcases hz o ho with ⟨h1, _⟩ | h1
    · exfalso
      have hA : A = [h.new] := by
        rw [q.next] at hpre
        cases pre with
        | nil => exact hpre
        | cons a l =>
          rw [hpre] at hhead hnd
          simp at hhead
          subst hhead
          simp at hnd
      rw [hA] at h1
      simp at h1
      apply q.noNew o ((hlive o).mp ho).1
      unfold Heap.I; rw [h1]; exact inv.newId
    · exact h1

/-- What one step does when nothing else happens. -/
theorem incrGc3_quiet {h : Heap} (inv : Inv none h) (hmark : ∀ o, Live h o → h.I o ≠ .mark) :
    ((incrGc3 h).2 = true → Quiet (incrGc3 h).1 ∧ (Quiet h → AllOld (incrGc3 h).1)) ∧ (Quiet h → Quiet (incrGc3 h).1) := by
  have rootCase : ∀ o, Live h o → 0 < h.refcount o → (h.I o = .gc ∨ h.I o = .save) → Quiet h → Quiet
      (toRootsFront { typeRefs { h with gen := upd h.gen o h.mark } o with gen := upd (typeRefs { h with gen := upd h.gen o h.mark } o).gen o (typeRefs { h with gen := upd h.gen o h.mark } o).oldHead }
        (typeRefs { h with gen := upd h.gen o h.mark } o).oldHead o) := by
    intro o hl hr hi q
    have i1 := toMark_ok inv hl hi
    have hIo : ({ h with gen := upd h.gen o h.mark } : Heap).I o = .mark := by
      show h.id (upd h.gen o h.mark o) = .mark
      rw [upd_eq, inv.markId]
    have hIp : ∀ p, p ≠ o → ({ h with gen := upd h.gen o h.mark } : Heap).I p = h.I p := by
      intro p hp
      show h.id (upd h.gen o h.mark p) = _
      rw [upd_ne _ _ hp]; rfl
    have hx : ∀ p, some o = some p → ({ h with gen := upd h.gen o h.mark } : Heap).I p = .mark := by
      intro p hp; injection hp with hp; subst hp; exact hIo
    have q1 : Quiet { h with gen := upd h.gen o h.mark } := by
      refine ⟨fun p hp => ?_, fun p hp => ?_, q.next⟩
      · by_cases hpo : p = o
        · subst hpo; rw [hIo]; simp
        · rw [hIp p hpo]; exact q.noNew p hp
      · by_cases hpo : p = o
        · subst hpo; rw [hIo]; simp
        · rw [hIp p hpo]; exact q.noSave p hp
    have q2 := typeRefs_quiet i1 hl hx hIo q1
    obtain ⟨i2, hst, _⟩ := typeRefs_ok i1 hl hx
    have hm := markRootsFront (h := typeRefs { h with gen := upd h.gen o h.mark } o) (o := o) (g := (typeRefs { h with gen := upd h.gen o h.mark } o).oldHead)
      (by rw [hst.refcount]; exact hr) rfl
    exact hm.quiet i2 ((hst.live o).mpr hl) i2.oldHead_mem q2
  unfold incrGc3
  split
  · rename_i o l hl
    obtain ⟨h1, h2, h3⟩ := inv.of_root (o := o) (g := h.gcHead) (by rw [hl]; simp)
    rw [inv.gcId _ inv.gcHead_mem] at h2
    exact ⟨fun h => by simp at h, rootCase o h1 h3 (.inl h2)⟩
  · rename_i hgc
    split
    · rename_i o l hl
      obtain ⟨h1, h2, h3⟩ := inv.of_root (o := o) (g := h.save) (by rw [hl]; simp)
      rw [inv.saveId] at h2
      exact ⟨fun h => by simp at h, rootCase o h1 h3 (.inr h2)⟩
    · rename_i hsr
      split
      · rename_i o l hl
        obtain ⟨h1, h2, h3⟩ := inv.of_nonRoot (o := o) (g := h.save) (by rw [hl]; simp)
        rw [inv.saveId] at h2
        exact ⟨fun h => by simp at h, fun q => absurd h2 (q.noSave o h1)⟩
      · rename_i hsn
        have := endCycle_quiet inv hmark (inv.noSave hsn hsr) hgc
        exact ⟨fun _ => this, fun _ => this.1⟩

theorem incrGc2_quiet {h : Heap} (inv : Inv none h) :
    ((incrGc2 h).2 = true → Quiet (incrGc2 h).1 ∧ (Quiet h → AllOld (incrGc2 h).1)) ∧ (Quiet h → Quiet (incrGc2 h).1) := by
  unfold incrGc2
  split
  · rename_i o l hl
    obtain ⟨h1, h2, h3⟩ := inv.of_nonRoot (o := o) (g := h.mark) (by rw [hl]; simp)
    rw [inv.markId] at h2
    obtain ⟨i1, hst, _⟩ := typeRefs_ok inv h1 (by simp)
    have hm : Moved (typeRefs h o) (toNonRootsBack { typeRefs h o with gen := upd (typeRefs h o).gen o (typeRefs h o).oldHead }
        (typeRefs h o).oldHead o) o (typeRefs h o).oldHead := moved_nonRootsBack (by rw [hst.refcount]; exact h3)
    exact ⟨fun h => by simp at h, fun q => hm.quiet i1 ((hst.live o).mpr h1) i1.oldHead_mem (typeRefs_quiet inv h1 (by simp) h2 q)⟩
  · rename_i hn
    split
    · rename_i o l hl
      obtain ⟨h1, h2, h3⟩ := inv.of_root (o := o) (g := h.mark) (by rw [hl]; simp)
      rw [inv.markId] at h2
      obtain ⟨i1, hst, _⟩ := typeRefs_ok inv h1 (by simp)
      have hm : Moved (typeRefs h o) (toRootsBack { typeRefs h o with gen := upd (typeRefs h o).gen o (typeRefs h o).oldHead }
          (typeRefs h o).oldHead o) o (typeRefs h o).oldHead := moved_rootsBack (by rw [hst.refcount]; exact h3)
      exact ⟨fun h => by simp at h, fun q => hm.quiet i1 ((hst.live o).mpr h1) i1.oldHead_mem (typeRefs_quiet inv h1 (by simp) h2 q)⟩
    · rename_i hr
      have hnm := inv.noMark hn hr
      have s := startOld_good inv hnm
      obtain ⟨k1, k2⟩ := incrGc3_quiet s.inv (startOld_noMark inv hnm)
      have sq := startOld_quiet inv hnm
      exact ⟨fun h => ⟨(k1 h).1, fun q => (k1 h).2 (sq q)⟩, fun q => k2 (sq q)⟩

theorem incrGc_quiet {h : Heap} (inv : Inv none h) :
    ((incrGc h).2 = true → Quiet (incrGc h).1 ∧ (Quiet h → AllOld (incrGc h).1)) ∧ (Quiet h → Quiet (incrGc h).1) := by
  have g1 := freeFirst_good inv
  have g2 := freeFirst_good g1.inv
  obtain ⟨k1, k2⟩ := incrGc2_quiet g2.inv
  have q : Quiet h → Quiet (freeFirst (freeFirst h)) := fun q => freeFirst_quiet g1.inv (freeFirst_quiet inv q)
  exact ⟨fun h => ⟨(k1 h).1, fun hq => (k1 h).2 (q hq)⟩, fun hq => k2 (q hq)⟩

theorem round_quiet {h h' : Heap} (n) (inv : Inv none h) (hr : round n h = some h') : Quiet h' ∧ (Quiet h → AllOld h') := by
  induction n generalizing h with
  | zero => simp [round] at hr
  | succ n ih =>
    have g := incrGc_good inv
    obtain ⟨k1, k2⟩ := incrGc_quiet inv
    unfold round at hr
    split at hr
    · rename_i k hk
      rw [hk] at k1
      injection hr with hr
      subst hr
      exact k1 rfl
    · rename_i k hk
      rw [hk] at g k2
      obtain ⟨h1, h2⟩ := ih g.inv hr
      exact ⟨h1, fun q => h2 (k2 q)⟩

theorem drain_quiet {h} (n) (inv : Inv none h) (q : Quiet h) : Quiet (drain n h) := by
  induction n generalizing h with
  | zero => exact q
  | succ n ih => exact ih (freeFirst_good inv).inv (freeFirst_quiet inv q)

theorem fullLoop_quiet {h h' : Heap} (n) (inv : Inv none h) (q : Quiet h) (hr : fullLoop n h = some h') : Quiet h' ∧ AllOld h' ∧ h'.free = [] := by
  induction n generalizing h with
  | zero => simp [fullLoop] at hr
  | succ n ih =>
    unfold fullLoop at hr
    split at hr
    · cases hr
    · rename_i k hk
      have g := round_good _ inv hk
      obtain ⟨h1, h2⟩ := round_quiet _ inv hk
      split at hr
      · rename_i hf; injection hr with hr; subst hr; exact ⟨h1, h2 q, hf⟩
      · exact ih (drain_good k.free.length g.inv).inv (drain_quiet _ g.inv h1) hr

theorem fullGc_quiet {h h' : Heap} {n} (inv : Inv none h) (hr : fullGc n h = some h') : Quiet h' ∧ AllOld h' ∧ h'.free = [] := by
  unfold fullGc at hr
  split at hr
  · cases hr
  · rename_i k hk
    exact fullLoop_quiet _ (round_good _ inv hk).inv (round_quiet _ inv hk).1 hr

/-! ### It ends -/

def wt : Id → Nat
  | .gc => 4
  | .save => 3
  | .mark => 2
  | _ => 0

open Classical in
noncomputable def weight (h : Heap) : Nat := ((List.range h.nextObj).map fun o => if Live h o then wt (h.I o) else 0).sum

theorem sum_le {f g : Nat → Nat} (l : List Nat) (hle : ∀ a ∈ l, f a ≤ g a) : (l.map f).sum ≤ (l.map g).sum := by
  induction l with
  | nil => simp
  | cons a l ih =>
    have := hle a (by simp)
    have := ih fun b hb => hle b (List.mem_cons_of_mem _ hb)
    simp only [List.map_cons, List.sum_cons]
    omega

theorem sum_lt {f g : Nat → Nat} (l : List Nat) (hle : ∀ a ∈ l, f a ≤ g a) {a} (ha : a ∈ l) (hlt : f a < g a) : (l.map f).sum < (l.map g).sum := by
  induction l with
  | nil => simp at ha
  | cons b l ih =>
    have h1 := hle b (by simp)
    have h2 := sum_le l fun b hb => hle b (List.mem_cons_of_mem _ hb)
    simp only [List.map_cons, List.sum_cons]
    rcases List.mem_cons.mp ha with rfl | ha
    · omega
    · have := ih (fun b hb => hle b (List.mem_cons_of_mem _ hb)) ha
      omega

theorem weight_le {h h' : Heap} (hn : h'.nextObj = h.nextObj) (hl : ∀ p, Live h' p ↔ Live h p) (hle : ∀ p, Live h p → wt (h'.I p) ≤ wt (h.I p)) :
    weight h' ≤ weight h := by
  unfold weight
  rw [hn]
  refine sum_le _ fun p _ => ?_
  by_cases h1 : Live h p
  · rw [if_pos h1, if_pos ((hl p).mpr h1)]; exact hle p h1
  · rw [if_neg h1, if_neg (fun h2 => h1 ((hl p).mp h2))]; exact Nat.le_refl _

theorem weight_lt {h h' : Heap} (hn : h'.nextObj = h.nextObj) (hl : ∀ p, Live h' p ↔ Live h p) (hle : ∀ p, Live h p → wt (h'.I p) ≤ wt (h.I p))
    {o} (ho : Live h o) (hlt : wt (h'.I o) < wt (h.I o)) : weight h' < weight h := by
  unfold weight
  rw [hn]
  refine sum_lt _ (fun p _ => ?_) (List.mem_range.mpr ho.1) ?_
  · by_cases h1 : Live h p
    · rw [if_pos h1, if_pos ((hl p).mpr h1)]; exact hle p h1
    · rw [if_neg h1, if_neg (fun h2 => h1 ((hl p).mp h2))]; exact Nat.le_refl _
  · rw [if_pos ho, if_pos ((hl o).mpr ho)]; exact hlt

theorem Step.wt {x h h'} (s : Step h h') (inv : Inv x h) (p) : wt (h'.I p) ≤ wt (h.I p) := by
  rcases s.zone p with h1 | ⟨h1, h2 | h2⟩ | ⟨h1, h2⟩
  · unfold Heap.I; rw [s.id, h1]; exact Nat.le_refl _
  · rw [h1]; unfold Heap.I; rw [s.id, h2, inv.markId]; simp [Verif.TypeHeap.wt]
  · rw [h1]; unfold Heap.I; rw [s.id, h2, inv.saveId]; simp [Verif.TypeHeap.wt]
  · rw [h1]; unfold Heap.I; rw [s.id, h2, inv.markId]; simp [Verif.TypeHeap.wt]

/-- Following references and then putting the object into a generation of weight 0. -/
theorem stepMoved_weight {x h h' o g} (inv : Inv x h) (s : Step h (typeRefs h o)) (hm : Moved (typeRefs h o) h' o g) (hl : Live h o)
    (hg : wt (h.id g) = 0) (hw : 0 < wt (h.I o)) : weight h' < weight h := by
  have hl' : Live (typeRefs h o) o := (s.live o).mpr hl
  have hI : ∀ p, wt (h'.I p) ≤ wt (h.I p) := by
    intro p
    rw [hm.I]
    split
    · rw [s.id, hg]; exact Nat.zero_le _
    · exact s.wt inv p
  refine weight_lt (hm.nextObj.trans s.nextObj) (fun p => (hm.live hl' p).trans (s.live p)) (fun p _ => hI p) hl ?_
  rw [hm.I, if_pos rfl, s.id, hg]; exact hw

theorem incrGc3_weight {h : Heap} (inv : Inv none h) (hf : (incrGc3 h).2 = false) : weight (incrGc3 h).1 < weight h := by
  have rootCase : ∀ o, Live h o → 0 < h.refcount o → (h.I o = .gc ∨ h.I o = .save) → weight
      (toRootsFront { typeRefs { h with gen := upd h.gen o h.mark } o with gen := upd (typeRefs { h with gen := upd h.gen o h.mark } o).gen o (typeRefs { h with gen := upd h.gen o h.mark } o).oldHead }
        (typeRefs { h with gen := upd h.gen o h.mark } o).oldHead o) < weight h := by
    intro o hl hr hi
    have i1 := toMark_ok inv hl hi
    have hIo : ({ h with gen := upd h.gen o h.mark } : Heap).I o = .mark := by
      show h.id (upd h.gen o h.mark o) = .mark
      rw [upd_eq, inv.markId]
    have hIp : ∀ p, p ≠ o → ({ h with gen := upd h.gen o h.mark } : Heap).I p = h.I p := by
      intro p hp
      show h.id (upd h.gen o h.mark p) = _
      rw [upd_ne _ _ hp]; rfl
    have hx : ∀ p, some o = some p → ({ h with gen := upd h.gen o h.mark } : Heap).I p = .mark := by
      intro p hp; injection hp with hp; subst hp; exact hIo
    obtain ⟨i2, hst, _⟩ := typeRefs_ok i1 hl hx
    have hm := markRootsFront (h := typeRefs { h with gen := upd h.gen o h.mark } o) (o := o) (g := (typeRefs { h with gen := upd h.gen o h.mark } o).oldHead)
      (by rw [hst.refcount]; exact hr) rfl
    have w1 : weight { h with gen := upd h.gen o h.mark } < weight h := by
      refine weight_lt rfl (fun _ => Iff.rfl) (fun p _ => ?_) hl ?_
      · by_cases hpo : p = o
        · subst hpo; rw [hIo]; rcases hi with h1 | h1 <;> rw [h1] <;> simp [wt]
        · rw [hIp p hpo]; exact Nat.le_refl _
      · rw [hIo]; rcases hi with h1 | h1 <;> rw [h1] <;> simp [wt]
    refine Nat.lt_trans (stepMoved_weight i1 hst hm hl ?_ ?_) w1
    · obtain ⟨n, hn⟩ := i2.oldNum _ i2.oldHead_mem
      rw [hst.id] at hn
      rw [hn]; rfl
    · rw [hIo]; simp [wt]
  unfold incrGc3 at hf ⊢
  split at hf
  · rename_i o l hl
    obtain ⟨h1, h2, h3⟩ := inv.of_root (o := o) (g := h.gcHead) (by rw [hl]; simp)
    rw [inv.gcId _ inv.gcHead_mem] at h2
    exact rootCase o h1 h3 (.inl h2)
  · rename_i hgc
    split at hf
    · rename_i o l hl
      obtain ⟨h1, h2, h3⟩ := inv.of_root (o := o) (g := h.save) (by rw [hl]; simp)
      rw [inv.saveId] at h2
      exact rootCase o h1 h3 (.inr h2)
    · rename_i hsr
      split at hf
      · rename_i o l hl
        obtain ⟨h1, h2, h3⟩ := inv.of_nonRoot (o := o) (g := h.save) (by rw [hl]; simp)
        rw [inv.saveId] at h2
        have hst := typeRefs_same inv h1 (by simp)
        have hm : Moved (typeRefs h o) (toNonRootsFront { typeRefs h o with gen := upd (typeRefs h o).gen o (typeRefs h o).new }
            (typeRefs h o).new o) o (typeRefs h o).new := moved_nonRootsFront (by rw [hst.refcount]; exact h3)
        refine stepMoved_weight inv hst hm h1 ?_ ?_
        · rw [hst.new, inv.newId]; rfl
        · rw [h2]; simp [wt]
      · simp at hf

theorem incrGc2_weight {h : Heap} (inv : Inv none h) (hf : (incrGc2 h).2 = false) : weight (incrGc2 h).1 < weight h := by
  unfold incrGc2 at hf ⊢
  split at hf
  · rename_i o l hl
    obtain ⟨h1, h2, h3⟩ := inv.of_nonRoot (o := o) (g := h.mark) (by rw [hl]; simp)
    rw [inv.markId] at h2
    obtain ⟨i1, hst, _⟩ := typeRefs_ok inv h1 (by simp)
    have hm : Moved (typeRefs h o) (toNonRootsBack { typeRefs h o with gen := upd (typeRefs h o).gen o (typeRefs h o).oldHead }
        (typeRefs h o).oldHead o) o (typeRefs h o).oldHead := moved_nonRootsBack (by rw [hst.refcount]; exact h3)
    refine stepMoved_weight inv hst hm h1 ?_ (by rw [h2]; simp [wt])
    obtain ⟨n, hn⟩ := i1.oldNum _ i1.oldHead_mem
    rw [hst.id] at hn
    rw [hn]; rfl
  · rename_i hn
    split at hf
    · rename_i o l hl
      obtain ⟨h1, h2, h3⟩ := inv.of_root (o := o) (g := h.mark) (by rw [hl]; simp)
      rw [inv.markId] at h2
      obtain ⟨i1, hst, _⟩ := typeRefs_ok inv h1 (by simp)
      have hm : Moved (typeRefs h o) (toRootsBack { typeRefs h o with gen := upd (typeRefs h o).gen o (typeRefs h o).oldHead }
          (typeRefs h o).oldHead o) o (typeRefs h o).oldHead := moved_rootsBack (by rw [hst.refcount]; exact h3)
      refine stepMoved_weight inv hst hm h1 ?_ (by rw [h2]; simp [wt])
      obtain ⟨n, hn⟩ := i1.oldNum _ i1.oldHead_mem
      rw [hst.id] at hn
      rw [hn]; rfl
    · rename_i hr
      have hnm := inv.noMark hn hr
      have s := startOld_good inv hnm
      refine Nat.lt_of_lt_of_le (incrGc3_weight s.inv hf) ?_
      exact weight_le s.same.nextObj (startOld_ok inv hnm).2 (fun p hp => by rw [startOld_I inv hp]; exact Nat.le_refl _)

theorem freeFirst_weight {h : Heap} (inv : Inv none h) : weight (freeFirst h) ≤ weight h :=
  weight_le (freeFirst_good inv).same.nextObj (freeFirst_ok inv).2 (fun p _ => by rw [freeFirst_I]; exact Nat.le_refl _)

theorem incrGc_weight {h : Heap} (inv : Inv none h) (hf : (incrGc h).2 = false) : weight (incrGc h).1 < weight h := by
  have g1 := freeFirst_good inv
  have g2 := freeFirst_good g1.inv
  exact Nat.lt_of_lt_of_le (incrGc2_weight g2.inv hf) (Nat.le_trans (freeFirst_weight g1.inv) (freeFirst_weight inv))

theorem round_mono {h h' : Heap} {n m} (hr : round n h = some h') (hnm : n ≤ m) : round m h = some h' := by
  induction n generalizing h m with
  | zero => simp [round] at hr
  | succ n ih =>
    cases m with
    | zero => omega
    | succ m =>
      unfold round at hr ⊢
      split at hr
      · exact hr
      · exact ih hr (by omega)

theorem round_ends (w : Nat) : ∀ h, weight h = w → Inv none h → ∃ n h', round n h = some h' := by
  induction w using Nat.strongRecOn with
  | _ w ih =>
    intro h hw inv
    cases hb : incrGc h with
    | mk k b =>
      cases b with
      | true => exact ⟨1, k, by unfold round; rw [hb]⟩
      | false =>
        have h1 := incrGc_weight inv (by rw [hb])
        have g := incrGc_good inv
        rw [hb] at h1 g
        obtain ⟨n, h', hn⟩ := ih _ (hw ▸ h1) k rfl g.inv
        exact ⟨n + 1, h', by unfold round; rw [hb]; exact hn⟩

theorem freeFirst_free {h : Heap} (inv : Inv none h) : (freeFirst h).free = h.free.tail := by
  unfold freeFirst
  cases hf : h.free with
  | nil => simp [hf]
  | cons o rest =>
    show h.free.filter (· ≠ o) = rest
    have hnd := inv.ndFree
    rw [hf] at hnd ⊢
    rw [List.filter_cons]
    simp only [ne_eq, not_true_eq_false, decide_false, Bool.false_eq_true, if_false]
    exact filter_ne (List.nodup_cons.mp hnd).1

theorem drain_free {h : Heap} (n) (inv : Inv none h) (hn : h.free.length ≤ n) : (drain n h).free = [] := by
  induction n generalizing h with
  | zero => exact List.eq_nil_of_length_eq_zero (Nat.le_zero.mp hn)
  | succ n ih =>
    refine ih (freeFirst_good inv).inv ?_
    rw [freeFirst_free inv, List.length_tail]; omega

theorem drain_allOld {h : Heap} (n) (inv : Inv none h) (ha : AllOld h) : AllOld (drain n h) := by
  induction n generalizing h with
  | zero => exact ha
  | succ n ih =>
    refine ih (freeFirst_good inv).inv fun o ho => ?_
    rw [freeFirst_I]; exact ha o ((freeFirst_good inv).live o ho)

theorem nil_of {h : Heap} (inv : Inv none h) (ha : AllOld h) {g} (hg : ∀ n, h.id g ≠ .num n) : h.roots g = [] ∧ h.nonRoots g = [] := by
  constructor
  · apply List.eq_nil_iff_forall_not_mem.mpr
    intro o ho
    obtain ⟨h1, h2, _⟩ := inv.of_root ho
    obtain ⟨n, hn⟩ := ha o h1
    exact hg n (h2 ▸ hn)
  · apply List.eq_nil_iff_forall_not_mem.mpr
    intro o ho
    obtain ⟨h1, h2, _⟩ := inv.of_nonRoot ho
    obtain ⟨n, hn⟩ := ha o h1
    exact hg n (h2 ▸ hn)

/-- With everything in old generations and nothing to free, a cycle is a single step. -/
theorem idle {h : Heap} (inv : Inv none h) (ha : AllOld h) (hf : h.free = []) : (incrGc h).2 = true ∧ (incrGc h).1.free = [] := by
  have e1 : freeFirst h = h := by unfold freeFirst; rw [hf]
  unfold incrGc
  rw [e1, e1]
  unfold incrGc2
  have h1 := nil_of inv ha (g := h.mark) (by rw [inv.markId]; simp)
  rw [h1.1, h1.2]
  simp only
  have hnm := inv.noMark h1.2 h1.1
  have s := startOld_good inv hnm
  have ha' : AllOld (startOld h) := fun o ho => by rw [startOld_I inv (s.live o ho)]; exact ha o (s.live o ho)
  have hf' : (startOld h).free = [] := by rw [(startOld_next h).2.2]; exact hf
  have inv' := s.inv
  generalize startOld h = k at *
  unfold incrGc3
  have h2 := nil_of inv' ha' (g := k.gcHead) (by rw [inv'.gcId _ inv'.gcHead_mem]; simp)
  have h3 := nil_of inv' ha' (g := k.save) (by rw [inv'.saveId]; simp)
  rw [h2.1, h3.1, h3.2]
  refine ⟨rfl, ?_⟩
  obtain ⟨A, B, _, _, _, e⟩ := endCycle_char inv'
  show (endCycle k).free = []
  rw [e.free, h2.2, hf']; rfl

theorem fullLoop_idle {h : Heap} (n) (inv : Inv none h) (ha : AllOld h) (hf : h.free = []) : ∃ h', fullLoop (n + 1) h = some h' := by
  obtain ⟨h1, h2⟩ := idle inv ha hf
  cases hb : incrGc h with
  | mk k b =>
    rw [hb] at h1 h2
    simp only at h1 h2
    subst h1
    refine ⟨k, ?_⟩
    have : round (n + 1) h = some k := by unfold round; rw [hb]
    unfold fullLoop
    rw [this]
    simp [h2]

theorem fullLoop_ends {h : Heap} (inv : Inv none h) (q : Quiet h) : ∃ n, ∀ m, n ≤ m → ∃ h', fullLoop m h = some h' := by
  obtain ⟨n, k, hk⟩ := round_ends _ h rfl inv
  refine ⟨n + 2, fun m hm => ?_⟩
  obtain ⟨m, rfl⟩ : ∃ j, m = j + 2 := ⟨m - 2, by omega⟩
  have hk' := round_mono hk (show n ≤ m + 1 + 1 by omega)
  unfold fullLoop
  rw [hk']
  simp only
  split
  · exact ⟨k, rfl⟩
  · have g := round_good _ inv hk
    have ha := (round_quiet _ inv hk).2 q
    exact fullLoop_idle m (drain_good _ g.inv).inv (drain_allOld _ g.inv ha) (drain_free _ g.inv (Nat.le_refl _))

theorem fullGc_ends {h : Heap} (inv : Inv none h) : ∃ n h', fullGc n h = some h' := by
  obtain ⟨n1, k, hk⟩ := round_ends _ h rfl inv
  obtain ⟨n2, h2⟩ := fullLoop_ends (round_good _ inv hk).inv (round_quiet _ inv hk).1
  obtain ⟨h', hh⟩ := h2 (n1 + n2) (by omega)
  refine ⟨n1 + n2, h', ?_⟩
  unfold fullGc
  rw [round_mono hk (show n1 ≤ n1 + n2 by omega)]
  exact hh

/-- Whatever is in an old generation that is not collected is needed. -/
theorem AllOld.needed {ops h} (t : Track ops h) (hc : Comp h.refs none h) (q : Quiet h) (ha : AllOld h) {o} (hl : Live h o) : Needed ops o := by
  have key : ∀ {r o}, Reach h.refs r o → Needed ops r → Needed ops o := by
    intro r o hr hn
    induction hr with
    | refl => exact hn
    | step _ h1 ih => exact .ref ih ((t.stored _ _).mp h1)
  obtain ⟨n, hn⟩ := ha o hl
  rcases hc o hl (.inr ⟨n, hn⟩) with ⟨m, _, k, h1, _⟩ | ⟨r, h1, h2⟩ | ⟨_, r, h1, _⟩
  · rw [q.next, t.inv.newId] at h1; cases h1
  · refine key h2 (.held ?_)
    rw [← t.holds]
    exact (t.inv.of_root (List.mem_of_mem_head? h1)).2.2
  · cases h1

/-! ### C25 -/

/-- No needed type is freed, none is freed twice, and the heap never touches freed memory. -/
theorem C25_safe (ops : List Op) (hl : Legal ops) :
    (run ops).ub = false ∧ (run ops).freed.Nodup ∧ ∀ o, Needed ops o → o < allocs ops ∧ o ∉ (run ops).freed := by
  have t := run_ok ops hl
  refine ⟨t.inv.ub, t.inv.ndFreed, fun o ho => ?_⟩
  have := t.live ho
  exact ⟨t.allocs ▸ this.1, this.2.1⟩

/-- A full collection ends, and it leaves exactly the needed types. -/
theorem C25_full (ops : List Op) (hl : Legal ops) : (∃ n h', fullGc n (run ops) = some h') ∧
    ∀ n h', fullGc n (run ops) = some h' → ∀ o, o < allocs ops → (o ∈ h'.freed ↔ ¬ Needed ops o) := by
  have t := run_ok ops hl
  refine ⟨fullGc_ends t.inv, fun n h' hf o ho => ?_⟩
  have t' : Track (.full n :: ops) h' := t.good (fullGc_good t.inv hf) (.full n) rfl (fun _ => rfl) (fun _ _ => by simp)
  have hn : ∀ p, Needed (.full n :: ops) p ↔ Needed ops p := by
    intro p
    constructor
    · intro h
      induction h with
      | held h1 => exact .held h1
      | ref _ h2 ih => exact .ref ih (by unfold Stored at h2 ⊢; simpa using h2)
    · intro h
      induction h with
      | held h1 => exact .held h1
      | ref _ h2 ih => exact .ref ih (by unfold Stored at h2 ⊢; simpa using h2)
  obtain ⟨q, ha, hfree⟩ := fullGc_quiet t.inv hf
  have hc := fullGc_comp t.inv (run_comp ops hl) hf
  constructor
  · intro h1 h2
    exact (t'.live ((hn o).mpr h2)).2.1 h1
  · intro h1
    by_contra h2
    apply h1
    rw [← hn]
    refine ha.needed t' hc q ⟨?_, h2, by rw [hfree]; simp⟩
    rw [t'.allocs]; exact ho

/-- When everything was released, freeing the heap (type-heap.c:382-403) frees every type. -/
theorem C25_all (ops : List Op) (hl : Legal ops) (hz : ∀ o, holds o ops = 0) :
    ∃ n h', fullGc n (run ops) = some h' ∧ ∀ o, o < allocs ops → o ∈ h'.freed := by
  obtain ⟨⟨n, h', h1⟩, h2⟩ := C25_full ops hl
  refine ⟨n, h', h1, fun o ho => (h2 n h' h1 o ho).mpr fun hn => ?_⟩
  have : ∀ p, ¬ Needed ops p := by
    intro p hp
    induction hp with
    | held h => rw [hz] at h; omega
    | ref _ _ ih => exact ih
  exact this o hn

/-! A cycle `0 → 1 → 0`, held by 0 only, then released; 2 is held throughout. -/

def exOps : List Op := [.release 0, .release 1, .store 1 0, .store 0 1, .alloc, .alloc, .alloc]

example : Legal exOps := by
  refine ⟨⟨⟨⟨trivial, ?_, ?_⟩, ?_, ?_⟩, ?_⟩, ?_⟩
  all_goals first | exact .held (by decide) | decide

example : Needed exOps 2 := .held (by decide)

example : Needed exOps.tail 1 := .ref (a := 0) (.held (by decide)) (by simp [Stored, exOps])

example : ((fullGc 30 (run exOps)).map (·.freed)) = some [1, 0] := by decide +kernel

example : ((fullGc 30 (run exOps.tail)).map (·.freed)) = some [] := by decide +kernel

end Verif.TypeHeap
