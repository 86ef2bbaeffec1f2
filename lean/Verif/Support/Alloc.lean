import Mathlib.Tactic.Common
/-
Allocation accounting, /repo/lib/alloc.c: C45.

SIMPLIFIED: malloc and realloc do not fail; which address they return is part of the operation.
-/
namespace Verif.Support.Alloc

/-- size_t. -/
abbrev W := BitVec 64

/-- The globals, alloc.c:17-24, and the `size` fields of the live allocations (Alloc, alloc.c:37-40). -/
structure St where
  total : W
  max : W
  live : List (Nat × W)

/-- The operations of fble-alloc.h.  `p = 0` is NULL; `r` is the address returned. -/
inductive Op where
  | alloc (r : Nat) (size : W)
  | realloc (p r : Nat) (size : W)
  | free (p : Nat)
  | reset
deriving DecidableEq

/-- `if (gTotalBytesAllocated > gMaxTotalBytesAllocated)`, alloc.c:67-69, 83-85. -/
def bump (s : St) : St := if s.max < s.total then { s with max := s.total } else s

/-- The size in the header of an allocation. -/
def header (s : St) (p : Nat) : W := ((s.live.find? (·.1 == p)).map (·.2)).getD 0

def drop (p : Nat) (l : List (Nat × W)) : List (Nat × W) := l.filter (·.1 != p)

/-- FbleAllocRaw, alloc.c:59-74. -/
def alloc (r : Nat) (size : W) (s : St) : St :=
  let s := bump { s with total := s.total + size }
  { s with live := (r, size) :: s.live }

/-- FbleReAllocRaw, alloc.c:76-91. -/
def realloc (p r : Nat) (size : W) (s : St) : St :=
  if p = 0 then alloc r size s
  else
    let s := bump { s with total := s.total + (size - header s p) }
    { s with live := (r, size) :: drop p s.live }

/-- FbleFree, alloc.c:94-103. -/
def free (p : Nat) (s : St) : St :=
  if p = 0 then s else { s with total := s.total - header s p, live := drop p s.live }

def step (s : St) : Op → St
  | .alloc r n => alloc r n s
  | .realloc p r n => realloc p r n s
  | .free p => free p s
  | .reset => { s with max := s.total }   -- FbleResetMaxTotalBytesAllocated, alloc.c:112-115

/-- Running operations, newest first. -/
def run : List Op → St
  | [] => ⟨0, 0, []⟩
  | op :: ops => step (run ops) op

/-- Exit, alloc.c:49-56: whether it reports a leak. -/
def leak (s : St) : Bool := s.total != 0

/-! ### Specification -/

/-- The live allocations, with their sizes, after some operations (newest first). -/
def liveAfter : List Op → List (Nat × Nat)
  | [] => []
  | .alloc r n :: ops => (r, n.toNat) :: liveAfter ops
  | .realloc p r n :: ops => (r, n.toNat) :: (liveAfter ops).filter (·.1 != p)
  | .free p :: ops => (liveAfter ops).filter (·.1 != p)
  | .reset :: ops => liveAfter ops

/-- The number of bytes live. -/
def bytes (ops : List Op) : Nat := ((liveAfter ops).map (·.2)).sum

/-- The most bytes that were live at any time since the last reset. -/
def peak : List Op → Nat
  | [] => 0
  | .reset :: ops => bytes ops
  | op :: ops => max (peak ops) (bytes (op :: ops))

/-- Addresses returned are not NULL and not those of live allocations; pointers passed are NULL or
live; and there are never more than 2^64 - 1 bytes live. -/
def Legal : List Op → Prop
  | [] => True
  | op :: ops => Legal ops ∧ bytes (op :: ops) < 2 ^ 64 ∧
    match op with
    | .alloc r _ => r ≠ 0 ∧ r ∉ (liveAfter ops).map (·.1)
    | .realloc p r _ => r ≠ 0 ∧ r ∉ ((liveAfter ops).filter (·.1 != p)).map (·.1) ∧
        (p = 0 ∨ p ∈ (liveAfter ops).map (·.1))
    | .free p => p = 0 ∨ p ∈ (liveAfter ops).map (·.1)
    | .reset => True

instance decLegal : ∀ ops, Decidable (Legal ops)
  | [] => isTrue trivial
  | op :: ops =>
    have := decLegal ops
    match op with
    | .alloc _ _ => inferInstanceAs (Decidable (_ ∧ _ ∧ _))
    | .realloc _ _ _ => inferInstanceAs (Decidable (_ ∧ _ ∧ _))
    | .free _ => inferInstanceAs (Decidable (_ ∧ _ ∧ _))
    | .reset => inferInstanceAs (Decidable (_ ∧ _ ∧ _))

def conv (l : List (Nat × W)) : List (Nat × Nat) := l.map fun q => (q.1, q.2.toNat)

structure Good (ops : List Op) (s : St) : Prop where
  live : conv s.live = liveAfter ops
  nd : ((liveAfter ops).map (·.1)).Nodup
  nz : 0 ∉ (liveAfter ops).map (·.1)
  total : s.total.toNat = bytes ops
  max : s.max.toNat = peak ops

theorem conv_drop (p : Nat) (l : List (Nat × W)) : conv (drop p l) = (conv l).filter (·.1 != p) := by
  induction l with
  | nil => rfl
  | cons q l ih =>
    simp only [conv, drop, List.map_cons, List.filter_cons] at ih ⊢
    split <;> simp_all

/-- Removing the allocation at `p` removes the size in its header. -/
theorem sum_drop {p : Nat} : ∀ {l : List (Nat × W)}, ((conv l).map (·.1)).Nodup → p ∈ (conv l).map (·.1) →
    ((conv l).map (·.2)).sum = (((l.find? (·.1 == p)).map (·.2)).getD (0 : W)).toNat +
      (((conv l).filter (·.1 != p)).map (·.2)).sum := by
  intro l
  induction l with
  | nil => intro _ h; cases h
  | cons q l ih =>
    intro hnd hm
    obtain ⟨a, w⟩ := q
    simp only [conv, List.map_cons, List.nodup_cons, List.mem_cons] at hnd hm ⊢
    by_cases e : a = p
    · subst e
      have : (List.map (fun q : Nat × W => (q.1, q.2.toNat)) l).filter (·.1 != a) =
          List.map (fun q : Nat × W => (q.1, q.2.toNat)) l := List.filter_eq_self.mpr fun x hx => by
        simp only [bne_iff_ne, ne_eq]
        rintro rfl
        exact hnd.1 (List.mem_map.mpr ⟨x, hx, rfl⟩)
      rw [List.filter_cons_of_neg (by simp), this]
      simp
    · have e' : (a == p) = false := by simpa using e
      rw [List.filter_cons_of_pos (by simpa using e)]
      simp only [List.find?_cons, e']
      have := ih hnd.2 (hm.resolve_left (Ne.symm e))
      simp only [conv] at this
      simp only [List.map_cons, List.sum_cons, this]
      omega

theorem bump_max (s : St) : (bump s).max.toNat = Nat.max s.max.toNat s.total.toNat ∧ (bump s).total = s.total ∧
    (bump s).live = s.live := by
  unfold bump
  split
  · rename_i h
    have h := BitVec.lt_def.mp h
    refine ⟨?_, rfl, rfl⟩
    show s.total.toNat = max _ _
    omega
  · rename_i h
    have h : ¬ s.max.toNat < s.total.toNat := fun h' => h (BitVec.lt_def.mpr h')
    refine ⟨?_, rfl, rfl⟩
    show s.max.toNat = max _ _
    omega

theorem filter_nodup {l : List (Nat × Nat)} {p} (h : (l.map (·.1)).Nodup) : ((l.filter (·.1 != p)).map (·.1)).Nodup :=
  h.sublist (List.filter_sublist.map _)

theorem filter_self {l : List (Nat × Nat)} {p} (h : p ∉ l.map (·.1)) : l.filter (·.1 != p) = l :=
  List.filter_eq_self.mpr fun x hx => by
    simp only [bne_iff_ne, ne_eq]
    rintro rfl
    exact h (List.mem_map.mpr ⟨x, hx, rfl⟩)

theorem run_good {ops} (h : Legal ops) : Good ops (run ops) := by
  induction ops with
  | nil => exact ⟨rfl, List.nodup_nil, by simp [liveAfter], rfl, rfl⟩
  | cons op ops ih =>
    obtain ⟨hl, hb, ho⟩ := h
    have g := ih hl
    have halloc : ∀ {r n} (op : Op), liveAfter (op :: ops) = (r, n.toNat) :: liveAfter ops → r ≠ 0 →
        r ∉ (liveAfter ops).map (·.1) → (∀ ops, peak (op :: ops) = max (peak ops) (bytes (op :: ops))) →
        bytes (op :: ops) < 2 ^ 64 → Good (op :: ops) (alloc r n (run ops)) := by
      intro r n op e h1 h2 hp hb
      obtain ⟨b1, b2, b3⟩ := bump_max { run ops with total := (run ops).total + n }
      have hby : bytes (op :: ops) = bytes ops + n.toNat := by
        simp only [bytes, e, List.map_cons, List.sum_cons]; omega
      have ht : ((run ops).total + n).toNat = bytes (op :: ops) := by
        rw [BitVec.toNat_add, g.total, Nat.mod_eq_of_lt (by omega)]; omega
      refine ⟨?_, ?_, ?_, ?_, ?_⟩
      · show conv ((r, n) :: (bump _).live) = _
        rw [b3, e, ← g.live]; rfl
      · rw [e]; exact List.nodup_cons.mpr ⟨h2, g.nd⟩
      · rw [e]
        simp only [List.map_cons, List.mem_cons, not_or]
        exact ⟨Ne.symm h1, g.nz⟩
      · show (bump _).total.toNat = _
        rw [b2]; exact ht
      · show (bump _).max.toNat = _
        rw [b1, ht, hp]
        show max (run ops).max.toNat _ = _
        rw [g.max]
    cases op with
    | alloc r n => exact halloc _ rfl ho.1 ho.2 (fun _ => rfl) hb
    | realloc p r n =>
      obtain ⟨h1, h2, h3⟩ := ho
      show Good _ (realloc p r n (run ops))
      unfold realloc
      split
      · rename_i e
        subst e
        rw [filter_self g.nz] at h2
        exact halloc _ (by simp only [liveAfter]; rw [filter_self g.nz]) h1 h2 (fun _ => rfl) hb
      · rename_i e
        have hm := h3.resolve_left e
        obtain ⟨b1, b2, b3⟩ := bump_max
          { run ops with total := (run ops).total + (n - header (run ops) p) }
        have hsum := sum_drop (p := p) (l := (run ops).live) (by rw [g.live]; exact g.nd) (by rw [g.live]; exact hm)
        rw [g.live] at hsum
        have hby : bytes (.realloc p r n :: ops) + (header (run ops) p).toNat = bytes ops + n.toNat := by
          simp only [bytes, liveAfter, List.map_cons, List.sum_cons, header] at hsum ⊢
          omega
        have hn := n.isLt
        have hhd := (header (run ops) p).isLt
        have hle : (header (run ops) p).toNat ≤ bytes ops := by
          simp only [bytes, header] at hsum ⊢
          omega
        have ht : ((run ops).total + (n - header (run ops) p)).toNat = bytes (.realloc p r n :: ops) := by
          rw [BitVec.toNat_add, BitVec.toNat_sub, g.total]
          have hbo : bytes ops < 2 ^ 64 := by rw [← g.total]; exact (run ops).total.isLt
          omega
        refine ⟨?_, ?_, ?_, ?_, ?_⟩
        · show conv ((r, n) :: drop p (bump _).live) = _
          rw [b3]
          show (r, n.toNat) :: conv (drop p (run ops).live) = _
          rw [conv_drop, g.live]; rfl
        · exact List.nodup_cons.mpr ⟨h2, filter_nodup g.nd⟩
        · simp only [liveAfter, List.map_cons, List.mem_cons, not_or]
          refine ⟨Ne.symm h1, fun h => g.nz ?_⟩
          exact (List.filter_sublist.map _).subset h
        · show (bump _).total.toNat = _
          rw [b2]; exact ht
        · show (bump _).max.toNat = _
          rw [b1]
          show max (run ops).max.toNat ((run ops).total + (n - header (run ops) p)).toNat = _
          rw [ht, g.max]; rfl
    | free p =>
      show Good _ (free p (run ops))
      have hp : ∀ {x}, bytes (.free p :: ops) ≤ bytes ops → x = peak ops → bytes ops ≤ peak ops →
          x = peak (.free p :: ops) := by
        intro x h1 h2 h3
        show x = max (peak ops) _
        omega
      have hpk : bytes ops ≤ peak ops := by
        cases ops with
        | nil => exact Nat.le_refl _
        | cons o os => cases o <;> simp only [peak] <;> first | exact Nat.le_max_right _ _ | exact Nat.le_refl _
      unfold free
      split
      · rename_i e
        subst e
        have e : liveAfter (.free 0 :: ops) = liveAfter ops := by
          simp only [liveAfter]; exact filter_self g.nz
        have eb : bytes (.free 0 :: ops) = bytes ops := by rw [bytes, e]; rfl
        exact ⟨by rw [e]; exact g.live, by rw [e]; exact g.nd, by rw [e]; exact g.nz, by rw [eb]; exact g.total,
          hp (by omega) g.max hpk⟩
      · rename_i e
        have hm := ho.resolve_left e
        have hsum := sum_drop (p := p) (l := (run ops).live) (by rw [g.live]; exact g.nd) (by rw [g.live]; exact hm)
        rw [g.live] at hsum
        have hby : bytes (.free p :: ops) + (header (run ops) p).toNat = bytes ops := by
          simp only [bytes, liveAfter, header] at hsum ⊢
          omega
        refine ⟨?_, filter_nodup g.nd, fun h => g.nz ((List.filter_sublist.map _).subset h), ?_,
          hp (by omega) g.max hpk⟩
        · show conv (drop p (run ops).live) = _
          rw [conv_drop, g.live]; rfl
        · show ((run ops).total - header (run ops) p).toNat = _
          have h1 := (run ops).total.isLt
          have h2 := (header (run ops) p).isLt
          rw [BitVec.toNat_sub]
          have := g.total
          omega
    | reset => exact ⟨g.live, g.nd, g.nz, g.total, g.total⟩

theorem bytes_eq_zero {l : List (Nat × Nat)} : (l.map (·.2)).sum = 0 ↔ ∀ x ∈ l, x.2 = 0 := by
  induction l with
  | nil => simp
  | cons x l ih =>
    simp only [List.map_cons, List.sum_cons, List.mem_cons, forall_eq_or_imp, ← ih]
    omega

/-- **C45**.  The tracked total is the number of live bytes, the recorded maximum is the peak since
the last reset, and the check at exit reports a leak exactly if an allocation of a nonzero size is
live. -/
theorem C45_accounting {ops} (h : Legal ops) :
    (run ops).total.toNat = bytes ops ∧ (run ops).max.toNat = peak ops ∧
    (leak (run ops) = true ↔ ∃ x ∈ liveAfter ops, x.2 ≠ 0) := by
  have g := run_good h
  refine ⟨g.total, g.max, ?_⟩
  have : leak (run ops) = true ↔ bytes ops ≠ 0 := by
    rw [← g.total, leak, bne_iff_ne, ne_eq, ne_eq]
    constructor
    · intro h1 h2; exact h1 (BitVec.eq_of_toNat_eq h2)
    · intro h1 h2; exact h1 (by rw [h2]; rfl)
  rw [this, bytes, ne_eq, bytes_eq_zero]
  constructor
  · intro h
    by_contra hn
    exact h fun x hx => by by_contra h0; exact hn ⟨x, hx, h0⟩
  · rintro ⟨x, hx, h0⟩ h
    exact h0 (h x hx)

/-- Growing, shrinking and moving blocks (newest first). -/
def history : List Op :=
  [.alloc 8 0, .free 2, .realloc 1 2 5, .reset, .realloc 1 1 100, .free 0, .realloc 0 3 7, .alloc 1 40]

example : Legal history ∧ (run history).total = 7 ∧ (run history).max = 107 ∧
    liveAfter history = [(8, 0), (3, 7)] := by decide +kernel

end Verif.Support.Alloc
