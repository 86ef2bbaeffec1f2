import Verif.TypeHeap.Cycle
/-
The end of a cycle of IncrGc.
-/
namespace Verif.TypeHeap

/-- The effect of the end of a cycle that splits the generations into `A`, collected next, and `B`. -/
structure Ended (h : Heap) (A B : List GenP) (h' : Heap) : Prop where
  gcs : h'.gcs = A
  old : (B ≠ [] ∧ h'.old = B) ∨ (B = [] ∧ h'.old = [h.nextGen] ∧ h'.id h.nextGen = .num 0 ∧ h.nextGen < h'.new)
  newGe : h.nextGen ≤ h'.new
  newLt : h'.new < h'.nextGen
  newId : h'.id h'.new = .new
  next : h'.next = h'.new
  id : ∀ g, g < h.nextGen → h'.id g = if g ∈ A then .gc else h.id g
  roots : ∀ g p, p ∈ h'.roots g ↔ (g = h.new ∧ ∃ a ∈ A, p ∈ h.roots a) ∨ (g ∉ A ∧ p ∈ h.roots g)
  nonRoots : ∀ g p, p ∈ h'.nonRoots g ↔ (g = h.new ∧ ∃ a ∈ A, a ≠ h.gcHead ∧ p ∈ h.nonRoots a) ∨
    (g ∉ A ∧ g ≠ h.gcHead ∧ p ∈ h.nonRoots g)
  rest : ∀ g, g ≠ h.new → g ∉ A → h'.roots g = h.roots g
  ndRoots : ∀ g, (h'.roots g).Nodup
  ndNonRoots : ∀ g, (h'.nonRoots g).Nodup
  free : h'.free = h.nonRoots h.gcHead ++ h.free
  freedGens : h'.freedGens = h.gcs ++ h.freedGens
  mark : h'.mark = h.mark
  save : h'.save = h.save
  gen : h'.gen = h.gen
  refcount : h'.refcount = h.refcount
  refs : h'.refs = h.refs
  nextObj : h'.nextObj = h.nextObj
  freed : h'.freed = h.freed
  ub : h'.ub = h.ub
  nextGen : h.nextGen ≤ h'.nextGen

theorem Inv.next_mem {x h} (inv : Inv x h) : h.next ∈ h.new :: h.old := by
  rcases inv.next with h1 | h1
  · rw [h1]; simp
  · exact List.mem_cons_of_mem _ h1

theorem Inv.genList {x h} (inv : Inv x h) : (h.new :: h.old).Nodup := by
  refine List.nodup_cons.mpr ⟨fun h1 => ?_, ?_⟩
  · obtain ⟨n, hn⟩ := inv.oldNum _ h1
    rw [inv.newId] at hn; cases hn
  · refine inv.oldDec.imp_of_mem fun {a b} ha hb hab h1 => ?_
    subst h1
    obtain ⟨n, hn⟩ := inv.oldNum _ ha
    rw [hn, Id.lt_num] at hab
    omega

theorem Inv.roots_fresh {h} (inv : Inv none h) {g} (hg : h.nextGen ≤ g) : h.roots g = [] ∧ h.nonRoots g = [] := by
  have key : ∀ o, Live h o → canon h (h.gen o) ≠ g := by
    intro o hl hc
    have : canon h (h.gen o) < h.nextGen := by
      unfold canon
      split
      · exact (inv.ltGen _ (.inr (.inl inv.gcHead_mem))).1
      · exact (inv.ltGen _ (inv.gens o hl)).1
    rw [hc] at this
    exact absurd this (Nat.not_lt.mpr hg)
  constructor
  · apply List.eq_nil_iff_forall_not_mem.mpr
    intro o ho
    obtain ⟨h1, h2, _⟩ := (inv.rootsOk g o (by simp)).mp ho
    exact key o h1 h2
  · apply List.eq_nil_iff_forall_not_mem.mpr
    intro o ho
    obtain ⟨h1, h2, _⟩ := (inv.nonRootsOk g o (by simp)).mp ho
    exact key o h1 h2

theorem upd_nil_mem {f : GenP → List Obj} {c g : GenP} {p : Obj} : p ∈ upd f c [] g ↔ g ≠ c ∧ p ∈ f g := by
  unfold upd; split <;> simp_all

theorem upd_nil_nodup {f : GenP → List Obj} (c : GenP) (h : ∀ g, (f g).Nodup) (g) : (upd f c [] g).Nodup := by
  unfold upd; split
  · simp
  · exact h g

theorem endCycle_char {h : Heap} (inv : Inv none h) :
    ∃ A B, A ++ B = h.new :: h.old ∧ (∃ pre, A = pre ++ [h.next]) ∧ A.head? = some h.new ∧ Ended h A B (endCycle h) := by
  obtain ⟨s1, s2, s3, pre, s4⟩ := splitAfter_eq inv.next_mem
  have hnd := inv.genList
  refine ⟨_, _, s1, ⟨pre, s4⟩, by simpa using s3, ?_⟩
  unfold endCycle
  simp only
  generalize hA : (splitAfter h.next (h.new :: h.old)).1 = A at *
  generalize hB : (splitAfter h.next (h.new :: h.old)).2 = B at *
  cases A with
  | nil => simp at s2
  | cons a0 As =>
  simp only [List.head?_cons, Option.some.injEq] at s3
  subst s3
  rw [← s1] at hnd
  have hndA : (h.new :: As).Nodup := (List.nodup_append.mp hnd).1
  obtain ⟨hA1, hA2⟩ := List.nodup_cons.mp hndA
  have hmemlt : ∀ g ∈ h.new :: As, g < h.nextGen := by
    intro g hg
    have : g ∈ h.new :: h.old := by rw [← s1]; exact List.mem_append_left _ hg
    rcases List.mem_cons.mp this with h1 | h1
    · exact (inv.ltGen _ (.inr (.inr (.inr (.inr h1))))).1
    · exact (inv.ltGen _ (.inl h1)).1
  simp only [List.tail_cons]
  generalize hk0 : ({ h with
      id := upd h.id h.new Id.gc
      nonRoots := upd h.nonRoots h.gcHead []
      old := B
      gcs := h.new :: As
      free := h.nonRoots h.gcHead ++ h.free
      freedGens := h.gcs ++ h.freedGens } : Heap) = k0
  have hab := absorb_fold (c := h.new) As k0 hA2 hA1
  generalize List.foldl (absorb h.new) k0 As = k1 at hab
  have hdR : ∀ a b p, p ∈ h.roots a → p ∈ h.roots b → a = b := by
    intro a b p ha hb
    rw [← ((inv.rootsOk a p (by simp)).mp ha).2.1, ← ((inv.rootsOk b p (by simp)).mp hb).2.1]
  have hdN : ∀ a b p, p ∈ h.nonRoots a → p ∈ h.nonRoots b → a = b := by
    intro a b p ha hb
    rw [← ((inv.nonRootsOk a p (by simp)).mp ha).2.1, ← ((inv.nonRootsOk b p (by simp)).mp hb).2.1]
  have hid : ∀ g, k1.id g = if g ∈ h.new :: As then .gc else h.id g := by
    intro g
    rw [hab.id, ← hk0]
    show (if g ∈ As then Id.gc else upd h.id h.new .gc g) = _
    unfold upd
    by_cases h1 : g ∈ As
    · simp [h1]
    · by_cases h2 : g = h.new
      · simp [h2]
      · simp [h1, h2]
  have hr : ∀ g p, p ∈ k1.roots g ↔ (g = h.new ∧ ∃ a ∈ h.new :: As, p ∈ h.roots a) ∨ (g ∉ h.new :: As ∧ p ∈ h.roots g) := by
    intro g p
    rw [hab.roots, ← hk0]
    simp only [List.mem_cons, not_or, and_assoc]
  have hn : ∀ g p, p ∈ k1.nonRoots g ↔ (g = h.new ∧ ∃ a ∈ h.new :: As, a ≠ h.gcHead ∧ p ∈ h.nonRoots a) ∨
      (g ∉ h.new :: As ∧ g ≠ h.gcHead ∧ p ∈ h.nonRoots g) := by
    intro g p
    rw [hab.nonRoots, ← hk0]
    simp only [List.mem_cons, not_or, and_assoc, upd_nil_mem]
  have hndR : ∀ g, (k1.roots g).Nodup := hab.ndRoots (by rw [← hk0]; exact inv.ndRoots) (by rw [← hk0]; exact hdR)
  have hndN : ∀ g, (k1.nonRoots g).Nodup := hab.ndNonRoots (by rw [← hk0]; exact upd_nil_nodup _ inv.ndNonRoots) (by
    rw [← hk0]; intro a b p ha hb; rw [upd_nil_mem] at ha hb; exact hdN a b p ha.2 hb.2)
  have hrest : ∀ g, g ≠ h.new → g ∉ h.new :: As → k1.roots g = h.roots g := by
    intro g h1 h2
    have := hab.rest g h1 (fun h3 => h2 (List.mem_cons_of_mem _ h3))
    rw [← hk0] at this
    exact this
  have heq := hab.eq
  rw [← hk0] at heq
  simp only at heq
  have e_old : k1.old = B := by rw [heq]
  have e_gcs : k1.gcs = h.new :: As := by rw [heq]
  have e_ng : k1.nextGen = h.nextGen := by rw [heq]
  have e1 : k1.mark = h.mark := by rw [heq]
  have e2 : k1.save = h.save := by rw [heq]
  have e3 : k1.gen = h.gen := by rw [heq]
  have e4 : k1.refcount = h.refcount := by rw [heq]
  have e5 : k1.refs = h.refs := by rw [heq]
  have e6 : k1.nextObj = h.nextObj := by rw [heq]
  have e7 : k1.freed = h.freed := by rw [heq]
  have e8 : k1.ub = h.ub := by rw [heq]
  have e9 : k1.free = h.nonRoots h.gcHead ++ h.free := by rw [heq]
  have e10 : k1.freedGens = h.gcs ++ h.freedGens := by rw [heq]
  clear heq hab
  have hnewlt : h.new < h.nextGen := hmemlt _ (by simp)
  have hrfresh : ∀ g, h.nextGen ≤ g → ∀ p, p ∉ k1.roots g := by
    intro g hg p hp
    rcases (hr g p).mp hp with ⟨h1, _⟩ | ⟨_, h1⟩
    · rw [h1] at hg; exact absurd hnewlt (Nat.not_lt.mpr hg)
    · rw [(inv.roots_fresh hg).1] at h1; simp at h1
  have hnfresh : ∀ g, h.nextGen ≤ g → ∀ p, p ∉ k1.nonRoots g := by
    intro g hg p hp
    rcases (hn g p).mp hp with ⟨h1, _⟩ | ⟨_, _, h1⟩
    · rw [h1] at hg; exact absurd hnewlt (Nat.not_lt.mpr hg)
    · rw [(inv.roots_fresh hg).2] at h1; simp at h1
  have hupd : ∀ (f : GenP → List Obj) c, (∀ p, p ∉ f c) → upd f c [] = f := by
    intro f c hf
    funext g
    unfold upd; split
    · rename_i h1; subst h1; exact (List.eq_nil_iff_forall_not_mem.mpr hf).symm
    · rfl
  have hnew1 : ∀ (_ : Nat) (i : Id), newGen k1 i = { k1 with id := upd k1.id h.nextGen i, nextGen := h.nextGen + 1 } := by
    intro _ i
    unfold newGen
    rw [e_ng, hupd _ _ (hrfresh _ (Nat.le_refl _)), hupd _ _ (hnfresh _ (Nat.le_refl _))]
  by_cases hBe : B = []
  · have hfo : firstOld k1 = { k1 with id := upd k1.id h.nextGen (.num 0), nextGen := h.nextGen + 1, old := [h.nextGen] } := by
      unfold firstOld
      rw [e_old, hBe, hnew1 0, e_ng]
    rw [hfo]
    simp only [startNew, newGen]
    have hr2 := hupd _ _ (hrfresh (h.nextGen + 1) (Nat.le_succ _))
    have hn2 := hupd _ _ (hnfresh (h.nextGen + 1) (Nat.le_succ _))
    rw [hr2, hn2]
    exact
    { gcs := e_gcs
      old := .inr ⟨hBe, rfl, by show upd (upd k1.id h.nextGen _) (h.nextGen + 1) _ h.nextGen = _; rw [upd_ne _ _ (Nat.ne_of_lt (Nat.lt_succ_self _)), upd_eq], Nat.lt_succ_self _⟩
      newGe := Nat.le_succ _
      newLt := Nat.lt_succ_self _
      newId := upd_eq _ _ _
      next := rfl
      id := fun g hg => by
        show upd (upd k1.id h.nextGen _) (h.nextGen + 1) _ g = _
        rw [upd_ne _ _ (Nat.ne_of_lt (Nat.lt_succ_of_lt hg)), upd_ne _ _ (Nat.ne_of_lt hg)]
        exact hid g
      roots := hr
      nonRoots := hn
      rest := hrest
      ndRoots := hndR
      ndNonRoots := hndN
      free := e9
      freedGens := e10
      mark := e1
      save := e2
      gen := e3
      refcount := e4
      refs := e5
      nextObj := e6
      freed := e7
      ub := e8
      nextGen := Nat.le_trans (Nat.le_succ _) (Nat.le_succ _) }
  · have hfo : firstOld k1 = k1 := by
      unfold firstOld
      rw [e_old]
      cases B with
      | nil => exact absurd rfl hBe
      | cons b l => rfl
    rw [hfo]
    unfold startNew
    rw [hnew1 0, e_ng]
    exact
    { gcs := e_gcs
      old := .inl ⟨hBe, e_old⟩
      newGe := Nat.le_refl _
      newLt := Nat.lt_succ_self _
      newId := upd_eq _ _ _
      next := rfl
      id := fun g hg => by
        show upd k1.id h.nextGen _ g = _
        rw [upd_ne _ _ (Nat.ne_of_lt hg)]
        exact hid g
      roots := hr
      nonRoots := hn
      rest := hrest
      ndRoots := hndR
      ndNonRoots := hndN
      free := e9
      freedGens := e10
      mark := e1
      save := e2
      gen := e3
      refcount := e4
      refs := e5
      nextObj := e6
      freed := e7
      ub := e8
      nextGen := Nat.le_succ _ }

theorem endCycle_ok {h : Heap} (inv : Inv none h) (hmark : ∀ o, Live h o → h.I o ≠ .mark) (hsave : ∀ o, Live h o → h.I o ≠ .save)
    (hroots : h.roots h.gcHead = []) :
    Inv none (endCycle h) ∧ (∀ o, Live (endCycle h) o ↔ Live h o ∧ h.I o ≠ .gc) := by
  obtain ⟨A, B, sAB, ⟨pre, hpre⟩, hhead, e⟩ := endCycle_char inv
  generalize endCycle h = h' at e
  have gcnon : ∀ o, o ∈ h.nonRoots h.gcHead ↔ Live h o ∧ h.I o = .gc := by
    intro o
    constructor
    · intro ho
      obtain ⟨h1, h2, _⟩ := inv.of_nonRoot ho
      rw [inv.gcId _ inv.gcHead_mem] at h2
      exact ⟨h1, h2⟩
    · rintro ⟨h1, h2⟩
      have hc : canon h (h.gen o) = h.gcHead := by unfold canon; unfold Heap.I at h2; rw [if_pos h2]
      by_cases hr : h.refcount o = 0
      · exact (inv.nonRootsOk _ o (by simp)).mpr ⟨h1, hc, hr⟩
      · have := (inv.rootsOk _ o (by simp)).mpr ⟨h1, hc, Nat.pos_of_ne_zero hr⟩
        rw [hroots] at this; simp at this
  have hlive : ∀ o, Live h' o ↔ Live h o ∧ h.I o ≠ .gc := by
    intro o
    have h1 := gcnon o
    unfold Live at *
    rw [e.nextObj, e.freed, e.free]
    simp only [List.mem_append, not_or]
    tauto
  refine ⟨?_, hlive⟩
  have inA : ∀ g ∈ A, g ∈ h.new :: h.old := fun g hg => by rw [← sAB]; exact List.mem_append_left _ hg
  have inB : ∀ g ∈ B, g ∈ h.new :: h.old := fun g hg => by rw [← sAB]; exact List.mem_append_right _ hg
  have hnd := inv.genList
  rw [← sAB] at hnd
  have hdisj : ∀ g ∈ B, g ∉ A := fun g hb ha => (List.nodup_append.mp hnd).2.2 g ha g hb rfl
  have hnewA : h.new ∈ A := List.mem_of_mem_head? hhead
  have hBold : ∀ g ∈ B, g ∈ h.old := by
    intro g hg
    rcases List.mem_cons.mp (inB g hg) with h1 | h1
    · subst h1; exact absurd hnewA (hdisj _ hg)
    · exact h1
  have ltAll : ∀ g, g ∈ h.old ∨ g ∈ h.gcs ∨ g = h.mark ∨ g = h.save ∨ g = h.new → g < h.nextGen := fun g hg => (inv.ltGen g hg).1
  have ltnew : ∀ g ∈ h.new :: h.old, g < h.nextGen := by
    intro g hg
    rcases List.mem_cons.mp hg with h1 | h1
    · exact ltAll _ (.inr (.inr (.inr (.inr h1))))
    · exact ltAll _ (.inl h1)
  have idA : ∀ g ∈ A, h'.id g = .gc := fun g hg => by rw [e.id g (ltnew _ (inA _ hg)), if_pos hg]
  have idB : ∀ g, g < h.nextGen → g ∉ A → h'.id g = h.id g := fun g h1 h2 => by rw [e.id g h1, if_neg h2]
  have notA : ∀ g, g ∈ A → h.id g = .new ∨ ∃ n, h.id g = .num n := by
    intro g hg
    rcases List.mem_cons.mp (inA g hg) with h1 | h1
    · left; rw [h1]; exact inv.newId
    · right; exact inv.oldNum g h1
  have markA : h.mark ∉ A := fun h1 => by
    rcases notA _ h1 with h2 | ⟨n, h2⟩ <;> rw [inv.markId] at h2 <;> cases h2
  have saveA : h.save ∉ A := fun h1 => by
    rcases notA _ h1 with h2 | ⟨n, h2⟩ <;> rw [inv.saveId] at h2 <;> cases h2
  have gcA : ∀ g ∈ h.gcs, g ∉ A := fun g hg h1 => by
    rcases notA _ h1 with h2 | ⟨n, h2⟩ <;> rw [inv.gcId g hg] at h2 <;> cases h2
  have notfreed : ∀ g ∈ h.new :: h.old, g ∉ h'.freedGens := by
    intro g hg
    rw [e.freedGens]
    simp only [List.mem_append, not_or]
    rcases List.mem_cons.mp hg with h1 | h1
    · exact ⟨(fun h2 => by have := inv.gcId g h2; rw [h1, inv.newId] at this; cases this),
        (inv.ltGen g (.inr (.inr (.inr (.inr h1))))).2⟩
    · exact ⟨(fun h2 => by have := inv.gcId g h2; obtain ⟨n, hn⟩ := inv.oldNum g h1; rw [this] at hn; cases hn),
        (inv.ltGen g (.inl h1)).2⟩
  have freedlt : ∀ g ∈ h'.freedGens, g < h.nextGen := by
    intro g hg
    rw [e.freedGens] at hg
    rcases List.mem_append.mp hg with h1 | h1
    · exact ltAll g (.inr (.inl h1))
    · exact inv.ltFreed g h1
  -- the zones of what is left
  have zone : ∀ o, Live h' o → h.gen o ∈ h.new :: h.old := by
    intro o ho
    obtain ⟨h1, h2⟩ := (hlive o).mp ho
    rcases inv.gens o h1 with h3 | h3 | h3 | h3 | h3
    · exact List.mem_cons_of_mem _ h3
    · exact absurd (inv.gcId _ h3) h2
    · exact absurd (by unfold Heap.I; rw [h3]; exact inv.markId) (hmark o h1)
    · exact absurd (by unfold Heap.I; rw [h3]; exact inv.saveId) (hsave o h1)
    · rw [h3]; simp
  have hsplit : ∀ g ∈ h.new :: h.old, g ∈ A ∨ g ∈ B := by
    intro g hg; rw [← sAB] at hg; exact List.mem_append.mp hg
  have hgcHead' : h'.gcHead = h.new := by
    unfold Heap.gcHead
    rw [e.gcs]
    cases A with
    | nil => simp at hhead
    | cons a l => simpa using hhead
  have hcanonA : ∀ g ∈ A, canon h' g = h.new := by
    intro g hg; unfold canon; rw [idA g hg, if_pos rfl, hgcHead']
  have hcanonB : ∀ g ∈ B, canon h' g = g := by
    intro g hg
    unfold canon
    rw [idB g (ltnew _ (inB _ hg)) (hdisj g hg)]
    obtain ⟨n, hn⟩ := inv.oldNum g (hBold g hg)
    rw [hn]; simp
  have hcanon0 : ∀ g ∈ h.new :: h.old, canon h g = g := by
    intro g hg
    unfold canon
    rcases List.mem_cons.mp hg with h1 | h1
    · rw [h1, inv.newId]; simp
    · obtain ⟨n, hn⟩ := inv.oldNum g h1
      rw [hn]; simp
  -- the order of the generations
  have hord : ∀ a ∈ A, ∀ b ∈ B, a ∈ h.old → (h.id b).lt (h.id a) = true := by
    intro a ha b hb hold
    have hp : (h.new :: h.old).Pairwise fun a b => a ∈ h.old → (h.id b).lt (h.id a) = true := by
      refine List.pairwise_cons.mpr ⟨fun b hb h1 => ?_, inv.oldDec.imp (S := fun a b => a ∈ h.old → (h.id b).lt (h.id a) = true) (fun {a b} h1 _ => h1)⟩
      obtain ⟨n, hn⟩ := inv.oldNum _ h1
      rw [inv.newId] at hn; cases hn
    rw [← sAB] at hp
    exact (List.pairwise_append.mp hp).2.2 a ha b hb hold
  have hnextA : h.next ∈ A := by rw [hpre]; simp
  have hnext : ∀ b ∈ B, ∀ n, h.id b = .num n → ¬ NextLe h n := by
    rintro b hb n hn ⟨m, hm, hmn⟩
    rcases inv.next with h1 | h1
    · rw [h1, inv.newId] at hm; cases hm
    · have := hord _ hnextA b hb h1
      rw [hm, hn, Id.lt_num] at this
      omega
  exact
  { oldNe := by rcases e.old with ⟨h1, h2⟩ | ⟨_, h2, _⟩ <;> simp [h2, *]
    gcNe := by rw [e.gcs]; rintro h1; rw [h1] at hnewA; simp at hnewA
    oldNum := by
      intro g hg
      rcases e.old with ⟨_, h2⟩ | ⟨_, h2, h3, _⟩
      · rw [h2] at hg
        rw [idB g (ltnew _ (inB _ hg)) (hdisj g hg)]
        exact inv.oldNum g (hBold g hg)
      · rw [h2] at hg
        simp at hg
        exact ⟨0, hg ▸ h3⟩
    oldDec := by
      rcases e.old with ⟨_, h2⟩ | ⟨_, h2, h3, _⟩
      · rw [h2]
        have hp : (h.new :: h.old).Pairwise fun a b => a ∈ h.old → (h.id b).lt (h.id a) = true := by
          refine List.pairwise_cons.mpr ⟨fun b hb h1 => ?_, inv.oldDec.imp (S := fun a b => a ∈ h.old → (h.id b).lt (h.id a) = true) (fun {a b} h1 _ => h1)⟩
          obtain ⟨n, hn⟩ := inv.oldNum _ h1
          rw [inv.newId] at hn; cases hn
        rw [← sAB] at hp
        refine (List.pairwise_append.mp hp).2.1.imp_of_mem fun {a b} ha hb hab => ?_
        rw [idB a (ltnew _ (inB _ ha)) (hdisj a ha), idB b (ltnew _ (inB _ hb)) (hdisj b hb)]
        exact hab (hBold a ha)
      · rw [h2]; simp
    gcId := by rw [e.gcs]; exact idA
    markId := by rw [e.mark, idB _ (ltAll _ (.inr (.inr (.inl rfl)))) markA]; exact inv.markId
    saveId := by rw [e.save, idB _ (ltAll _ (.inr (.inr (.inr (.inl rfl))))) saveA]; exact inv.saveId
    newId := e.newId
    ltGen := by
      have up : ∀ g, g < h.nextGen → g < h'.nextGen := fun g hg => Nat.lt_of_lt_of_le hg e.nextGen
      have fresh : ∀ g, h.nextGen ≤ g → g ∉ h'.freedGens := fun g hg h1 => absurd (freedlt g h1) (Nat.not_lt.mpr hg)
      intro g hg
      rcases hg with h1 | h1 | h1 | h1 | h1
      · rcases e.old with ⟨_, h2⟩ | ⟨_, h2, h3, h4⟩
        · rw [h2] at h1
          exact ⟨up g (ltnew _ (inB _ h1)), notfreed g (inB _ h1)⟩
        · rw [h2] at h1
          simp at h1
          subst h1
          exact ⟨Nat.lt_trans h4 e.newLt, fresh _ (Nat.le_refl _)⟩
      · rw [e.gcs] at h1
        exact ⟨up g (ltnew _ (inA _ h1)), notfreed g (inA _ h1)⟩
      · rw [e.mark] at h1
        subst h1
        refine ⟨up _ (ltAll _ (.inr (.inr (.inl rfl)))), ?_⟩
        rw [e.freedGens]
        simp only [List.mem_append, not_or]
        exact ⟨fun h2 => by (have := inv.gcId _ h2; rw [inv.markId] at this; cases this), (inv.ltGen _ (.inr (.inr (.inl rfl)))).2⟩
      · rw [e.save] at h1
        subst h1
        refine ⟨up _ (ltAll _ (.inr (.inr (.inr (.inl rfl))))), ?_⟩
        rw [e.freedGens]
        simp only [List.mem_append, not_or]
        exact ⟨fun h2 => by (have := inv.gcId _ h2; rw [inv.saveId] at this; cases this), (inv.ltGen _ (.inr (.inr (.inr (.inl rfl))))).2⟩
      · subst h1
        exact ⟨e.newLt, fresh _ e.newGe⟩
    ltFreed := fun g hg => Nat.lt_of_lt_of_le (freedlt g hg) e.nextGen
    next := .inl e.next
    gens := by
      intro o ho
      rw [e.gen]
      rcases hsplit _ (zone o ho) with h1 | h1
      · right; left; rw [e.gcs]; exact h1
      · left
        rcases e.old with ⟨_, h2⟩ | ⟨h2, _⟩
        · rw [h2]; exact h1
        · rw [h2] at h1; simp at h1
    rootsOk := by
      intro g o _
      rw [e.roots, hlive, e.gen, e.refcount]
      constructor
      · rintro (⟨rfl, a, ha, h1⟩ | ⟨hg, h1⟩)
        · obtain ⟨h2, h3, h4⟩ := (inv.rootsOk a o (by simp)).mp h1
          have hI := inv.canon_I h3
          have hnm : h.I o ≠ .gc := by rw [hI]; rcases notA a ha with h5 | ⟨n, h5⟩ <;> rw [h5] <;> simp
          refine ⟨⟨h2, hnm⟩, ?_, h4⟩
          have : h.gen o = a := by unfold canon at h3; unfold Heap.I at hnm; rw [if_neg hnm] at h3; exact h3
          rw [this]; exact hcanonA a ha
        · obtain ⟨h2, h3, h4⟩ := (inv.rootsOk g o (by simp)).mp h1
          have hnm : h.I o ≠ .gc := by
            intro h5
            unfold canon at h3
            unfold Heap.I at h5
            rw [if_pos h5] at h3
            rw [← h3, hroots] at h1; simp at h1
          have hgo : h.gen o = g := by unfold canon at h3; unfold Heap.I at hnm; rw [if_neg hnm] at h3; exact h3
          have hl' := (hlive o).mpr ⟨h2, hnm⟩
          refine ⟨⟨h2, hnm⟩, ?_, h4⟩
          have hz := zone o hl'
          rw [hgo] at hz ⊢
          rcases hsplit g hz with h5 | h5
          · exact absurd h5 hg
          · exact hcanonB g h5
      · rintro ⟨⟨h2, hnm⟩, h3, h4⟩
        have hz := zone o ((hlive o).mpr ⟨h2, hnm⟩)
        have hroot := (inv.rootsOk (h.gen o) o (by simp)).mpr ⟨h2, hcanon0 _ hz, h4⟩
        rcases hsplit _ hz with h5 | h5
        · rw [hcanonA _ h5] at h3
          exact .inl ⟨h3.symm, _, h5, hroot⟩
        · rw [hcanonB _ h5] at h3
          exact .inr ⟨h3 ▸ hdisj _ h5, h3 ▸ hroot⟩
    nonRootsOk := by
      intro g o _
      rw [e.nonRoots, hlive, e.gen, e.refcount]
      constructor
      · rintro (⟨rfl, a, ha, _, h1⟩ | ⟨hg, hgc, h1⟩)
        · obtain ⟨h2, h3, h4⟩ := (inv.nonRootsOk a o (by simp)).mp h1
          have hI := inv.canon_I h3
          have hnm : h.I o ≠ .gc := by rw [hI]; rcases notA a ha with h5 | ⟨n, h5⟩ <;> rw [h5] <;> simp
          refine ⟨⟨h2, hnm⟩, ?_, h4⟩
          have : h.gen o = a := by unfold canon at h3; unfold Heap.I at hnm; rw [if_neg hnm] at h3; exact h3
          rw [this]; exact hcanonA a ha
        · obtain ⟨h2, h3, h4⟩ := (inv.nonRootsOk g o (by simp)).mp h1
          have hnm : h.I o ≠ .gc := by
            intro h5
            unfold canon at h3
            unfold Heap.I at h5
            rw [if_pos h5] at h3
            exact hgc h3.symm
          have hgo : h.gen o = g := by unfold canon at h3; unfold Heap.I at hnm; rw [if_neg hnm] at h3; exact h3
          have hl' := (hlive o).mpr ⟨h2, hnm⟩
          refine ⟨⟨h2, hnm⟩, ?_, h4⟩
          have hz := zone o hl'
          rw [hgo] at hz ⊢
          rcases hsplit g hz with h5 | h5
          · exact absurd h5 hg
          · exact hcanonB g h5
      · rintro ⟨⟨h2, hnm⟩, h3, h4⟩
        have hz := zone o ((hlive o).mpr ⟨h2, hnm⟩)
        have hroot := (inv.nonRootsOk (h.gen o) o (by simp)).mpr ⟨h2, hcanon0 _ hz, h4⟩
        have hgc : h.gen o ≠ h.gcHead := by
          intro h5
          apply hnm
          unfold Heap.I
          rw [h5]; exact inv.gcId _ inv.gcHead_mem
        rcases hsplit _ hz with h5 | h5
        · rw [hcanonA _ h5] at h3
          exact .inl ⟨h3.symm, _, h5, hgc, hroot⟩
        · rw [hcanonB _ h5] at h3
          exact .inr ⟨h3 ▸ hdisj _ h5, h3 ▸ hgc, h3 ▸ hroot⟩
    ndRoots := e.ndRoots
    ndNonRoots := e.ndNonRoots
    freeOk := by
      intro o ho
      rw [e.nextObj, e.freed, e.refcount]
      rw [e.free] at ho
      rcases List.mem_append.mp ho with h1 | h1
      · obtain ⟨h2, _, h4⟩ := inv.of_nonRoot h1
        exact ⟨h2.1, h2.2.1, h4⟩
      · exact inv.freeOk o h1
    ndFree := by
      rw [e.free]
      refine List.nodup_append.mpr ⟨inv.ndNonRoots _, inv.ndFree, fun a ha b hb hab => ?_⟩
      subst hab
      exact ((gcnon a).mp ha).1.2.2 hb
    freedOk := by rw [e.freed, e.nextObj, e.refcount]; exact inv.freedOk
    ndFreed := by rw [e.freed]; exact inv.ndFreed
    unborn := by rw [e.nextObj, e.refcount]; exact inv.unborn
    refsLive := by
      intro o ho p hp
      rw [e.refs] at hp
      obtain ⟨h1, h2⟩ := (hlive o).mp ho
      refine (hlive p).mpr ⟨inv.refsLive o h1 p hp, ?_⟩
      intro hgc
      have he := inv.edge o h1 p hp
      rw [hgc] at he
      have hz := zone o ho
      unfold Edge at he
      rcases List.mem_cons.mp hz with h3 | h3
      · have hI : h.I o = .new := by unfold Heap.I; rw [h3]; exact inv.newId
        rw [hI] at he
        exact he rfl
      · obtain ⟨n, hn⟩ := inv.oldNum _ h3
        have hI : h.I o = .num n := hn
        rw [hI] at he
        simp at he
    edge := by
      intro o ho p hp
      rw [e.refs] at hp
      obtain ⟨h1, h2⟩ := (hlive o).mp ho
      have hlp := inv.refsLive o h1 p hp
      rcases hsplit _ (zone o ho) with h3 | h3
      · have : h'.I o = .gc := by unfold Heap.I; rw [e.gen]; exact idA _ h3
        rw [this]; trivial
      · obtain ⟨n, hn⟩ := inv.oldNum _ (hBold _ h3)
        have hI : h.I o = .num n := hn
        have hI' : h'.I o = .num n := by
          unfold Heap.I; rw [e.gen, idB _ (ltnew _ (inB _ h3)) (hdisj _ h3)]; exact hn
        have he := inv.edge o h1 p hp
        rw [hI] at he
        rw [hI']
        unfold Edge at he ⊢
        simp only at he ⊢
        rcases he with ⟨m, h4, h5⟩ | ⟨h4, _⟩ | ⟨_, h4⟩
        · left
          refine ⟨m, ?_, h5⟩
          have hgp := inv.zone_old hlp h4
          have hpA : h.gen p ∉ A := by
            intro h6
            have := hord _ h6 _ h3 hgp
            have h4' : h.id (h.gen p) = .num m := h4
            rw [hn, h4', Id.lt_num] at this
            omega
          unfold Heap.I
          rw [e.gen, idB _ (ltnew _ (List.mem_cons_of_mem _ hgp)) hpA]
          exact h4
        · exact absurd h4 (hmark p hlp)
        · exact absurd h4 (hnext _ h3 n hn)
    ub := by rw [e.ub]; exact inv.ub }

end Verif.TypeHeap
