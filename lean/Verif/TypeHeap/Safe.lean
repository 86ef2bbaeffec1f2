import Verif.TypeHeap.Ops
/-
C25: no type that is still needed is freed, whatever the history.
-/
namespace Verif.TypeHeap

structure Track (ops : List Op) (h : Heap) : Prop where
  inv : Inv none h
  allocs : h.nextObj = allocs ops
  holds : ∀ o, h.refcount o = holds o ops
  stored : ∀ a b, b ∈ h.refs a ↔ Stored a b ops
  fresh : ∀ a, h.nextObj ≤ a → h.refs a = []

theorem Track.live {ops h} (t : Track ops h) {o} (hn : Needed ops o) : Live h o := by
  induction hn with
  | @held o h1 =>
    rw [← t.holds] at h1
    refine ⟨?_, ?_, ?_⟩
    · by_contra h2
      have := t.inv.unborn o (Nat.not_lt.mp h2)
      omega
    · intro h2; have := (t.inv.freedOk o h2).2; omega
    · intro h2; have := (t.inv.freeOk o h2).2.2; omega
  | ref _ h2 ih => exact t.inv.refsLive _ ih _ ((t.stored _ _).mpr h2)

theorem Track.good {ops h h'} (t : Track ops h) (g : Good h h') (op : Op) (ha : Verif.TypeHeap.allocs (op :: ops) = Verif.TypeHeap.allocs ops)
    (hh : ∀ o, Verif.TypeHeap.holds o (op :: ops) = Verif.TypeHeap.holds o ops) (hs : ∀ a b, op ≠ .store a b) : Track (op :: ops) h' where
  inv := g.inv
  allocs := by rw [g.same.nextObj, ha]; exact t.allocs
  holds := fun o => by rw [g.same.refcount, hh]; exact t.holds o
  stored := fun a b => by
    rw [g.same.refs, t.stored]
    unfold Stored
    simp [Ne.symm (hs a b)]
  fresh := by rw [g.same.nextObj, g.same.refs]; exact t.fresh

theorem run_ok (ops : List Op) (hl : Legal ops) : Track ops (run ops) := by
  induction ops with
  | nil => exact ⟨newHeap_inv, rfl, fun _ => rfl, fun a b => by simp [run, newHeap, Stored], fun _ _ => rfl⟩
  | cons op ops ih =>
    cases op with
    | alloc =>
      have t := ih hl
      obtain ⟨h1, h2, h3, h4⟩ := alloc_ok t.inv
      have hfresh : ∀ b, ¬ Stored (run ops).nextObj b ops := by
        intro b hb
        have := (t.stored _ b).mpr hb
        rw [t.fresh _ (Nat.le_refl _)] at this
        simp at this
      refine ⟨h1, ?_, ?_, ?_, ?_⟩
      · show (allocType (run ops)).nextObj = _
        rw [h4, t.allocs]; rfl
      · intro o
        show (allocType (run ops)).refcount o = if allocs ops = o then 1 else holds o ops
        rw [h2, t.allocs]
        unfold upd
        split
        · rename_i h5; rw [if_pos h5.symm]
        · rename_i h5; rw [if_neg (Ne.symm h5)]; exact t.holds o
      · intro a b
        show b ∈ (allocType (run ops)).refs a ↔ _
        rw [h3]
        have : Stored a b (.alloc :: ops) ↔ Stored a b ops := by unfold Stored; simp
        rw [this]
        by_cases ha : a = (run ops).nextObj
        · subst ha; rw [upd_eq]; simp; exact hfresh b
        · rw [upd_ne _ _ ha]; exact t.stored a b
      · intro a ha
        have ha : (allocType (run ops)).nextObj ≤ a := ha
        show (allocType (run ops)).refs a = []
        rw [h4] at ha
        rw [h3, upd_ne _ _ (Nat.ne_of_gt ha)]
        exact t.fresh a (Nat.le_of_succ_le ha)
    | retain p =>
      have t := ih hl.1
      obtain ⟨h1, h2, h3, h4⟩ := retain_ok t.inv (t.live hl.2)
      refine ⟨h1, h4.trans t.allocs, fun o => ?_, fun a b => ?_, fun a ha => ?_⟩
      · show (retainType (run ops) p).refcount o = if p = o then holds o ops + 1 else holds o ops
        rw [h2]
        unfold upd
        split
        · rename_i h5; rw [if_pos h5.symm, ← h5, t.holds]
        · rename_i h5; rw [if_neg (Ne.symm h5)]; exact t.holds o
      · show b ∈ (retainType (run ops) p).refs a ↔ _
        rw [h3, t.stored]; unfold Stored; simp
      · have ha : (retainType (run ops) p).nextObj ≤ a := ha
        show (retainType (run ops) p).refs a = []
        rw [h3]; exact t.fresh a (h4 ▸ ha)
    | release p =>
      have t := ih hl.1
      obtain ⟨h1, h2, h3, h4⟩ := release_ok t.inv (t.live (.held hl.2)) (by rw [t.holds]; exact hl.2)
      refine ⟨h1, h4.trans t.allocs, fun o => ?_, fun a b => ?_, fun a ha => ?_⟩
      · show (releaseType (run ops) p).refcount o = if p = o then holds o ops - 1 else holds o ops
        rw [h2]
        unfold upd
        split
        · rename_i h5; rw [if_pos h5.symm, ← h5, t.holds]
        · rename_i h5; rw [if_neg (Ne.symm h5)]; exact t.holds o
      · show b ∈ (releaseType (run ops) p).refs a ↔ _
        rw [h3, t.stored]; unfold Stored; simp
      · have ha : (releaseType (run ops) p).nextObj ≤ a := ha
        show (releaseType (run ops) p).refs a = []
        rw [h3]; exact t.fresh a (h4 ▸ ha)
    | store x y =>
      have t := ih hl.1
      obtain ⟨h1, h2, h3, h4⟩ := store_ok t.inv (t.live hl.2.1) (t.live hl.2.2)
      refine ⟨h1, h4.trans t.allocs, fun o => ?_, fun a b => ?_, fun a ha => ?_⟩
      · show (storeRef (run ops) x y).refcount o = holds o ops
        rw [h2]; exact t.holds o
      · show b ∈ (storeRef (run ops) x y).refs a ↔ _
        rw [h3]
        have : Stored a b (.store x y :: ops) ↔ (a = x ∧ b = y) ∨ Stored a b ops := by unfold Stored; simp
        rw [this, ← t.stored]
        by_cases ha : a = x
        · subst ha; rw [upd_eq]; simp; tauto
        · rw [upd_ne _ _ ha]; simp [ha]
      · replace ha : (run ops).nextObj ≤ a := h4 ▸ ha
        show (storeRef (run ops) x y).refs a = []
        have hx := (t.live hl.2.1).1
        have hne : a ≠ x := by rintro rfl; exact Nat.lt_irrefl _ (Nat.lt_of_lt_of_le hx ha)
        rw [h3, upd_ne _ _ hne]; exact t.fresh a ha
    | full n =>
      have t := ih hl
      show Track _ ((fullGc n (run ops)).getD (run ops))
      cases hf : fullGc n (run ops) with
      | none =>
        exact t.good (h' := run ops) ⟨t.inv, Same.refl _, fun _ h => h, fun _ h _ => h⟩ (.full n) rfl (fun _ => rfl) (fun _ _ => by simp)
      | some h' => exact t.good (fullGc_good t.inv hf) (.full n) rfl (fun _ => rfl) (fun _ _ => by simp)

end Verif.TypeHeap
