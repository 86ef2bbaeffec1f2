import Verif.TypeHeap.Spec
import Mathlib.Tactic.Common
/-
The invariant of the type heap.
-/
namespace Verif.TypeHeap

/-- Not freed and not about to be. -/
def Live (h : Heap) (o : Obj) : Prop := o < h.nextObj ∧ o ∉ h.freed ∧ o ∉ h.free

/-- The zone of an object. -/
def Heap.I (h : Heap) (o : Obj) : Id := h.id (h.gen o)

/-- The next cycle includes the old generation `n`. -/
def NextLe (h : Heap) (n : Nat) : Prop := ∃ m, h.id h.next = .num m ∧ m ≤ n

/-- The generation whose lists an object is on. -/
def canon (h : Heap) (g : GenP) : GenP := if h.id g = .gc then h.gcHead else g

/-- What an object in a zone may refer to. -/
def Edge (h : Heap) (a b : Id) : Prop :=
  match a with
  | .gc | .mark | .save => True
  | .new => b ≠ .gc
  | .num n => (∃ m, b = .num m ∧ m ≤ n) ∨ (b = .mark ∧ h.id h.oldHead = .num n) ∨ (b ≠ .gc ∧ NextLe h n)

structure Inv (x : Option Obj) (h : Heap) : Prop where
  oldNe : h.old ≠ []
  gcNe : h.gcs ≠ []
  oldNum : ∀ g ∈ h.old, ∃ n, h.id g = .num n
  oldDec : h.old.Pairwise fun a b => (h.id b).lt (h.id a) = true
  gcId : ∀ g ∈ h.gcs, h.id g = .gc
  markId : h.id h.mark = .mark
  saveId : h.id h.save = .save
  newId : h.id h.new = .new
  ltGen : ∀ g, g ∈ h.old ∨ g ∈ h.gcs ∨ g = h.mark ∨ g = h.save ∨ g = h.new → g < h.nextGen ∧ g ∉ h.freedGens
  ltFreed : ∀ g ∈ h.freedGens, g < h.nextGen
  next : h.next = h.new ∨ h.next ∈ h.old
  gens : ∀ o, Live h o → h.gen o ∈ h.old ∨ h.gen o ∈ h.gcs ∨ h.gen o = h.mark ∨ h.gen o = h.save ∨ h.gen o = h.new
  rootsOk : ∀ g o, x ≠ some o → (o ∈ h.roots g ↔ Live h o ∧ canon h (h.gen o) = g ∧ 0 < h.refcount o)
  nonRootsOk : ∀ g o, x ≠ some o → (o ∈ h.nonRoots g ↔ Live h o ∧ canon h (h.gen o) = g ∧ h.refcount o = 0)
  ndRoots : ∀ g, (h.roots g).Nodup
  ndNonRoots : ∀ g, (h.nonRoots g).Nodup
  freeOk : ∀ o ∈ h.free, o < h.nextObj ∧ o ∉ h.freed ∧ h.refcount o = 0
  ndFree : h.free.Nodup
  freedOk : ∀ o ∈ h.freed, o < h.nextObj ∧ h.refcount o = 0
  ndFreed : h.freed.Nodup
  unborn : ∀ o, h.nextObj ≤ o → h.refcount o = 0
  refsLive : ∀ o, Live h o → ∀ p ∈ h.refs o, Live h p
  edge : ∀ o, Live h o → ∀ p ∈ h.refs o, Edge h (h.I o) (h.I p)
  ub : h.ub = false

theorem upd_eq {α : Type} (f : Nat → α) (a : Nat) (b : α) : upd f a b a = b := by simp [upd]

theorem upd_ne {α : Type} (f : Nat → α) {a x : Nat} (b : α) (h : x ≠ a) : upd f a b x = f x := by simp [upd, h]

theorem Id.lt_num {a b : Nat} : Id.lt (.num a) (.num b) = true ↔ a < b := by simp [Id.lt]

theorem Inv.oldHead_mem {x h} (inv : Inv x h) : h.oldHead ∈ h.old := by
  have := inv.oldNe
  unfold Heap.oldHead
  cases hl : h.old with
  | nil => exact absurd hl this
  | cons a l => simp

theorem Inv.gcHead_mem {x h} (inv : Inv x h) : h.gcHead ∈ h.gcs := by
  have := inv.gcNe
  unfold Heap.gcHead
  cases hl : h.gcs with
  | nil => exact absurd hl this
  | cons a l => simp

/-- The youngest old generation has the largest number. -/
theorem Inv.oldHead_max {x h} (inv : Inv x h) : ∃ N, h.id h.oldHead = .num N ∧ ∀ g ∈ h.old, ∃ n, h.id g = .num n ∧ n ≤ N := by
  obtain ⟨N, hN⟩ := inv.oldNum _ inv.oldHead_mem
  refine ⟨N, hN, fun g hg => ?_⟩
  obtain ⟨n, hn⟩ := inv.oldNum g hg
  refine ⟨n, hn, ?_⟩
  have hd := inv.oldDec
  unfold Heap.oldHead at hN
  cases hl : h.old with
  | nil => rw [hl] at hg; simp at hg
  | cons a l =>
    rw [hl] at hd hg hN
    rcases List.mem_cons.mp hg with rfl | hg
    · simp at hN; rw [hN] at hn; injection hn with hn; omega
    · have := (List.pairwise_cons.mp hd).1 g hg
      simp at hN
      rw [hn, hN, Id.lt_num] at this
      omega

/-- Objects in old zones are exactly those in generations on the list `old`. -/
theorem Inv.zone_old {x h} (inv : Inv x h) {o} (hl : Live h o) {n} (hi : h.I o = .num n) : h.gen o ∈ h.old := by
  rcases inv.gens o hl with h1 | h1 | h1 | h1 | h1
  · exact h1
  · have := inv.gcId _ h1; unfold Heap.I at hi; rw [this] at hi; cases hi
  · unfold Heap.I at hi; rw [h1, inv.markId] at hi; cases hi
  · unfold Heap.I at hi; rw [h1, inv.saveId] at hi; cases hi
  · unfold Heap.I at hi; rw [h1, inv.newId] at hi; cases hi

theorem Inv.zone_mark {x h} (inv : Inv x h) {o} (hl : Live h o) (hi : h.I o = .mark) : h.gen o = h.mark := by
  unfold Heap.I at hi
  rcases inv.gens o hl with h1 | h1 | h1 | h1 | h1
  · obtain ⟨n, hn⟩ := inv.oldNum _ h1; rw [hn] at hi; cases hi
  · rw [inv.gcId _ h1] at hi; cases hi
  · exact h1
  · rw [h1, inv.saveId] at hi; cases hi
  · rw [h1, inv.newId] at hi; cases hi

theorem Inv.zone_save {x h} (inv : Inv x h) {o} (hl : Live h o) (hi : h.I o = .save) : h.gen o = h.save := by
  unfold Heap.I at hi
  rcases inv.gens o hl with h1 | h1 | h1 | h1 | h1
  · obtain ⟨n, hn⟩ := inv.oldNum _ h1; rw [hn] at hi; cases hi
  · rw [inv.gcId _ h1] at hi; cases hi
  · rw [h1, inv.markId] at hi; cases hi
  · exact h1
  · rw [h1, inv.newId] at hi; cases hi

theorem Inv.zone_gc {x h} (inv : Inv x h) {o} (hl : Live h o) (hi : h.I o = .gc) : h.gen o ∈ h.gcs := by
  unfold Heap.I at hi
  rcases inv.gens o hl with h1 | h1 | h1 | h1 | h1
  · obtain ⟨n, hn⟩ := inv.oldNum _ h1; rw [hn] at hi; cases hi
  · exact h1
  · rw [h1, inv.markId] at hi; cases hi
  · rw [h1, inv.saveId] at hi; cases hi
  · rw [h1, inv.newId] at hi; cases hi

theorem Inv.zone_new {x h} (inv : Inv x h) {o} (hl : Live h o) (hi : h.I o = .new) : h.gen o = h.new := by
  unfold Heap.I at hi
  rcases inv.gens o hl with h1 | h1 | h1 | h1 | h1
  · obtain ⟨n, hn⟩ := inv.oldNum _ h1; rw [hn] at hi; cases hi
  · rw [inv.gcId _ h1] at hi; cases hi
  · rw [h1, inv.markId] at hi; cases hi
  · rw [h1, inv.saveId] at hi; cases hi
  · exact h1

/-- The next cycle includes the youngest old generation iff `next` is not the new one. -/
theorem Inv.next_num {x h} (inv : Inv x h) {N} (hN : h.id h.oldHead = .num N) (hne : h.next ≠ h.new) : NextLe h N := by
  rcases inv.next with h1 | h1
  · exact absurd h1 hne
  · obtain ⟨N', h2, h3⟩ := inv.oldHead_max
    rw [hN] at h2; injection h2 with h2; subst h2
    exact h3 _ h1

/-! ### Moving one object -/

/-- `h'` is `h` with object `o` moved to generation `g`. -/
structure Moved (h h' : Heap) (o : Obj) (g : GenP) : Prop where
  id : h'.id = h.id
  old : h'.old = h.old
  mark : h'.mark = h.mark
  gcs : h'.gcs = h.gcs
  save : h'.save = h.save
  new : h'.new = h.new
  next : h'.next = h.next
  gen : h'.gen = upd h.gen o g
  refcount : h'.refcount = h.refcount
  refs : h'.refs = h.refs
  nextObj : h'.nextObj = h.nextObj
  nextGen : h'.nextGen = h.nextGen
  freed : h'.freed = h.freed
  freedGens : h'.freedGens = h.freedGens
  ub : h'.ub = h.ub
  free : h'.free = h.free.filter (· ≠ o)
  roots : ∀ c p, p ∈ h'.roots c ↔ (p ≠ o ∧ p ∈ h.roots c) ∨ (p = o ∧ c = g ∧ 0 < h.refcount o)
  nonRoots : ∀ c p, p ∈ h'.nonRoots c ↔ (p ≠ o ∧ p ∈ h.nonRoots c) ∨ (p = o ∧ c = g ∧ h.refcount o = 0)
  ndRoots : (∀ c, (h.roots c).Nodup) → ∀ c, (h'.roots c).Nodup
  ndNonRoots : (∀ c, (h.nonRoots c).Nodup) → ∀ c, (h'.nonRoots c).Nodup

theorem moved_rootsFront {h : Heap} {o g} (hr : 0 < h.refcount o) :
    Moved h (toRootsFront { h with gen := upd h.gen o g } g o) o g := by
  refine ⟨rfl, rfl, rfl, rfl, rfl, rfl, rfl, rfl, rfl, rfl, rfl, rfl, rfl, rfl, rfl, rfl, ?_, ?_, ?_, ?_⟩
  · intro c p
    simp only [toRootsFront, unlink, upd]
    split
    · rename_i hc; subst hc; simp [hr]; tauto
    · rename_i hc; simp [hc]; tauto
  · intro c p
    simp only [toRootsFront, unlink]
    have : ¬ h.refcount o = 0 := by omega
    simp [this]; tauto
  · intro hn c
    simp only [toRootsFront, unlink, upd]
    split
    · exact List.nodup_cons.mpr ⟨by simp, (hn _).filter _⟩
    · exact (hn c).filter _
  · intro hn c
    exact (hn c).filter _

theorem moved_nonRootsFront {h : Heap} {o g} (hr : h.refcount o = 0) :
    Moved h (toNonRootsFront { h with gen := upd h.gen o g } g o) o g := by
  refine ⟨rfl, rfl, rfl, rfl, rfl, rfl, rfl, rfl, rfl, rfl, rfl, rfl, rfl, rfl, rfl, rfl, ?_, ?_, ?_, ?_⟩
  · intro c p
    simp only [toNonRootsFront, unlink]
    simp [hr]; tauto
  · intro c p
    simp only [toNonRootsFront, unlink, upd]
    split
    · rename_i hc; subst hc; simp [hr]; tauto
    · rename_i hc; simp [hc]; tauto
  · intro hn c
    exact (hn c).filter _
  · intro hn c
    simp only [toNonRootsFront, unlink, upd]
    split
    · exact List.nodup_cons.mpr ⟨by simp, (hn _).filter _⟩
    · exact (hn c).filter _

theorem nodup_back {l : List Obj} (o : Obj) (h : l.Nodup) : (l.filter (· ≠ o) ++ [o]).Nodup := by
  refine List.nodup_append.mpr ⟨h.filter _, by simp, ?_⟩
  intro a ha b hb
  simp at ha hb
  subst hb
  exact ha.2

theorem moved_rootsBack {h : Heap} {o g} (hr : 0 < h.refcount o) :
    Moved h (toRootsBack { h with gen := upd h.gen o g } g o) o g := by
  refine ⟨rfl, rfl, rfl, rfl, rfl, rfl, rfl, rfl, rfl, rfl, rfl, rfl, rfl, rfl, rfl, rfl, ?_, ?_, ?_, ?_⟩
  · intro c p
    simp only [toRootsBack, unlink, upd]
    split
    · rename_i hc; subst hc; simp [hr]; tauto
    · rename_i hc; simp [hc]; tauto
  · intro c p
    simp only [toRootsBack, unlink]
    have : ¬ h.refcount o = 0 := by omega
    simp [this]; tauto
  · intro hn c
    simp only [toRootsBack, unlink, upd]
    split
    · exact nodup_back o (hn _)
    · exact (hn c).filter _
  · intro hn c
    exact (hn c).filter _

theorem moved_nonRootsBack {h : Heap} {o g} (hr : h.refcount o = 0) :
    Moved h (toNonRootsBack { h with gen := upd h.gen o g } g o) o g := by
  refine ⟨rfl, rfl, rfl, rfl, rfl, rfl, rfl, rfl, rfl, rfl, rfl, rfl, rfl, rfl, rfl, rfl, ?_, ?_, ?_, ?_⟩
  · intro c p
    simp only [toNonRootsBack, unlink]
    simp [hr]; tauto
  · intro c p
    simp only [toNonRootsBack, unlink, upd]
    split
    · rename_i hc; subst hc; simp [hr]; tauto
    · rename_i hc; simp [hc]; tauto
  · intro hn c
    exact (hn c).filter _
  · intro hn c
    simp only [toNonRootsBack, unlink, upd]
    split
    · exact nodup_back o (hn _)
    · exact (hn c).filter _

theorem Moved.live {h h' o g} (m : Moved h h' o g) (hl : Live h o) (p : Obj) : Live h' p ↔ Live h p := by
  unfold Live
  rw [m.nextObj, m.freed, m.free]
  have := hl.2.2
  simp only [List.mem_filter, decide_eq_true_eq, ne_eq, not_and, not_not]
  constructor
  · rintro ⟨h1, h2, h3⟩
    exact ⟨h1, h2, fun h => this (h3 h ▸ h)⟩
  · rintro ⟨h1, h2, h3⟩
    exact ⟨h1, h2, fun h => absurd h h3⟩

theorem Moved.I {h h' o g} (m : Moved h h' o g) (p : Obj) : h'.I p = if p = o then h.id g else h.I p := by
  unfold Heap.I
  rw [m.id, m.gen]
  unfold upd
  split <;> rfl

theorem Moved.oldHead {h h' o g} (m : Moved h h' o g) : h'.oldHead = h.oldHead := by unfold Heap.oldHead; rw [m.old]
theorem Moved.gcHead {h h' o g} (m : Moved h h' o g) : h'.gcHead = h.gcHead := by unfold Heap.gcHead; rw [m.gcs]
theorem Moved.nextLe {h h' o g} (m : Moved h h' o g) (n : Nat) : NextLe h' n ↔ NextLe h n := by
  unfold NextLe; rw [m.id, m.next]
theorem Moved.edge {h h' o g} (m : Moved h h' o g) (a b : Id) : Edge h' a b ↔ Edge h a b := by
  unfold Edge
  cases a <;> simp only [m.nextLe, m.id, m.oldHead]

/-- Moving an object to a generation keeps the invariant if the edges from and to it are right
afterwards. -/
theorem Moved.inv {x y h h' o g} (m : Moved h h' o g) (inv : Inv x h) (hx : ∀ p, p ≠ o → y ≠ some p → x ≠ some p) (hl : Live h o)
    (hg : g ∈ h.old ∨ g = h.gcHead ∨ g = h.mark ∨ g = h.save ∨ g = h.new)
    (hout : ∀ p ∈ h.refs o, Edge h (h.id g) (if p = o then h.id g else h.I p))
    (hin : ∀ p, p ≠ o → Live h p → o ∈ h.refs p → Edge h (h.I p) (h.id g)) : Inv y h' := by
  have hcan : ∀ c, canon h' c = canon h c := by
    intro c; unfold canon; rw [m.id, m.gcHead]
  have hcg : canon h g = g := by
    unfold canon
    rcases hg with h1 | h1 | h1 | h1 | h1
    · obtain ⟨n, hn⟩ := inv.oldNum g h1; rw [hn]; simp
    · subst h1; simp
    · subst h1; rw [inv.markId]; simp
    · subst h1; rw [inv.saveId]; simp
    · subst h1; rw [inv.newId]; simp
  have hg' : g ∈ h.old ∨ g ∈ h.gcs ∨ g = h.mark ∨ g = h.save ∨ g = h.new := by
    rcases hg with h1 | h1 | h1
    · exact .inl h1
    · right; left; rw [h1]; exact inv.gcHead_mem
    · right; right; exact h1
  constructor
  · rw [m.old]; exact inv.oldNe
  · rw [m.gcs]; exact inv.gcNe
  · rw [m.old, m.id]; exact inv.oldNum
  · rw [m.old, m.id]; exact inv.oldDec
  · rw [m.gcs, m.id]; exact inv.gcId
  · rw [m.mark, m.id]; exact inv.markId
  · rw [m.save, m.id]; exact inv.saveId
  · rw [m.new, m.id]; exact inv.newId
  · rw [m.old, m.gcs, m.mark, m.save, m.new, m.nextGen, m.freedGens]; exact inv.ltGen
  · rw [m.nextGen, m.freedGens]; exact inv.ltFreed
  · rw [m.next, m.new, m.old]; exact inv.next
  · intro p hp
    rw [m.live hl] at hp
    rw [m.gen, m.old, m.gcs, m.mark, m.save, m.new]
    unfold upd
    split
    · exact hg'
    · exact inv.gens p hp
  · intro c p hy
    rw [m.roots, m.live hl, hcan, m.refcount, m.gen]
    by_cases hp : p = o
    · subst hp
      simp [upd, hcg, hl]; tauto
    · simp only [hp, ne_eq, not_false_eq_true, true_and, false_and, or_false, upd, if_false]
      exact inv.rootsOk c p (hx p hp hy)
  · intro c p hy
    rw [m.nonRoots, m.live hl, hcan, m.refcount, m.gen]
    by_cases hp : p = o
    · subst hp
      simp [upd, hcg, hl]; tauto
    · simp only [hp, ne_eq, not_false_eq_true, true_and, false_and, or_false, upd, if_false]
      exact inv.nonRootsOk c p (hx p hp hy)
  · exact m.ndRoots inv.ndRoots
  · exact m.ndNonRoots inv.ndNonRoots
  · intro p hp
    rw [m.free] at hp
    rw [m.nextObj, m.freed, m.refcount]
    exact inv.freeOk p (List.mem_filter.mp hp).1
  · rw [m.free]; exact inv.ndFree.filter _
  · rw [m.freed, m.nextObj, m.refcount]; exact inv.freedOk
  · rw [m.freed]; exact inv.ndFreed
  · rw [m.nextObj, m.refcount]; exact inv.unborn
  · intro p hp q hq
    rw [m.live hl] at hp ⊢
    rw [m.refs] at hq
    exact inv.refsLive p hp q hq
  · intro p hp q hq
    rw [m.live hl] at hp
    rw [m.refs] at hq
    rw [m.edge, m.I, m.I]
    by_cases h1 : p = o
    · subst h1
      rw [if_pos rfl]
      exact hout q hq
    · rw [if_neg h1]
      by_cases h2 : q = o
      · subst h2; rw [if_pos rfl]; exact hin p h1 hp hq
      · rw [if_neg h2]; exact inv.edge p hp q hq
  · rw [m.ub]; exact inv.ub

end Verif.TypeHeap
