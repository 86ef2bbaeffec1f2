import Mathlib.Tactic.Common
/-
Growable vectors, /repo/lib/vector.c and /repo/include/fble/fble-vector.h, and their copy in
/repo/fbld/vector.c: C44.

SIMPLIFIED: the multiplication `2 * s * elem_size` does not overflow; an allocation does not fail.
-/
namespace Verif.Support.Vector

/-- A vector: its size, how many elements its allocation has room for, and the memory.  `oob` tells
whether an element outside the allocation was written. -/
structure Vec (α : Type) where
  size : Nat
  room : Nat
  mem : Nat → α
  oob : Bool

variable {α : Type}

/-- FbleInitVector, fble-vector.h:42-44: room for one element, of arbitrary content. -/
def init (junk : Nat → α) : Vec α := ⟨0, 1, junk, false⟩

/-- FbleExtendVectorRaw, lib/vector.c:11-21 (FbldExtendVectorRaw, fbld/vector.c:11-21).  realloc keeps
the elements that fit and leaves the rest arbitrary. -/
def extend (junk : Nat → α) (v : Vec α) : Vec α :=
  let s := v.size
  let v := { v with size := s + 1 }
  if s > 0 ∧ s &&& (s - 1) = 0 then
    { v with room := 2 * s, mem := fun i => if i < min v.room (2 * s) then v.mem i else junk i }
  else v

/-- FbleAppendToVector, fble-vector.h:91-92: writes the element at `size - 1`. -/
def append (junk : Nat → α) (x : α) (v : Vec α) : Vec α :=
  let v := extend junk v
  { v with mem := fun i => if i = v.size - 1 then x else v.mem i,
           oob := v.oob || decide (v.room ≤ v.size - 1) }

/-- Appending elements one after the other, each time with other junk in fresh memory. -/
def appendAll : List (α × (Nat → α)) → Vec α → Vec α
  | [], v => v
  | (x, junk) :: xs, v => appendAll xs (append junk x v)

/-- The elements of the vector. -/
def elems (v : Vec α) : List α := (List.range v.size).map v.mem

/-- The allocation has as much room as the next power of two. -/
structure Good (v : Vec α) : Prop where
  nub : v.oob = false
  room : ∃ k, v.room = 2 ^ k ∧ v.size ≤ 2 ^ k ∧ (v.size = 0 ∧ k = 0 ∨ 2 ^ k < 2 * v.size)

theorem pow_and (k : Nat) : 2 ^ k &&& (2 ^ k - 1) = 0 := by
  rw [Nat.and_two_pow_sub_one_eq_mod, Nat.mod_self]

theorem not_pow_and {s k : Nat} (h1 : 2 ^ k < s) (h2 : s < 2 ^ (k + 1)) : s &&& (s - 1) ≠ 0 := by
  intro h
  have a : ∀ n, 2 ^ k ≤ n → n < 2 ^ (k + 1) → n.testBit k = true := by
    intro n l r
    rw [Nat.testBit_eq_decide_div_mod_eq]
    have : n / 2 ^ k = 1 := by
      exact Nat.div_eq_of_lt_le (by omega) (by rw [Nat.pow_succ] at r; omega)
    simp [this]
  have := congrArg (Nat.testBit · k) h
  simp only [Nat.testBit_and, Nat.zero_testBit] at this
  rw [a s (by omega) h2, a (s - 1) (by omega) (by omega)] at this
  simp at this

theorem append_good {v : Vec α} (g : Good v) (junk : Nat → α) (x : α) :
    Good (append junk x v) ∧ elems (append junk x v) = elems v ++ [x] := by
  obtain ⟨k, hk, hle, hlt⟩ := g.room
  have hpos : 0 < 2 ^ k := Nat.two_pow_pos k
  have key : ∃ k', (extend junk v).room = 2 ^ k' ∧ (extend junk v).size = v.size + 1 ∧ v.size + 1 ≤ 2 ^ k' ∧
      2 ^ k' < 2 * (v.size + 1) ∧ (extend junk v).oob = v.oob ∧ ∀ i < v.size, (extend junk v).mem i = v.mem i := by
    unfold extend
    dsimp only
    split
    · rename_i h
      -- the size is a power of two, so it is the room
      have hs : v.size = 2 ^ k := by
        rcases Nat.lt_or_ge v.size (2 ^ k) with hl | hl
        · exfalso
          rcases hlt with ⟨h0, _⟩ | hlt
          · omega
          · cases k with
            | zero => simp at hlt hl; omega
            | succ k =>
              rcases Nat.lt_or_ge (2 ^ k) v.size with h' | h'
              · exact not_pow_and h' hl h.2
              · rw [Nat.pow_succ] at hlt; omega
        · omega
      refine ⟨k + 1, ?_, rfl, ?_, ?_, rfl, fun i hi => ?_⟩
      · show 2 * v.size = _
        rw [hs, Nat.pow_succ]; omega
      · rw [Nat.pow_succ]; omega
      · rw [Nat.pow_succ]; omega
      · show (if i < min v.room (2 * v.size) then v.mem i else junk i) = _
        rw [if_pos]
        omega
    · rename_i h
      refine ⟨k, hk, rfl, ?_, ?_, rfl, fun i _ => rfl⟩
      · show v.size + 1 ≤ 2 ^ k
        rcases Nat.lt_or_ge v.size (2 ^ k) with hl | hl
        · omega
        · have e : v.size = 2 ^ k := by omega
          exact absurd ⟨by omega, by rw [e]; exact pow_and k⟩ h
      · rcases hlt with ⟨_, h0⟩ | hlt
        · subst h0; simp; omega
        · omega
  obtain ⟨k', r1, r2, r3, r4, r5, r6⟩ := key
  refine ⟨⟨?_, k', r1, ?_, .inr ?_⟩, ?_⟩
  · simp only [append, r1, r2, r5, g.nub]
    simp; omega
  · simp only [append, r2]; exact r3
  · simp only [append, r2]; exact r4
  · have hsz : (append junk x v).size = v.size + 1 := r2
    simp only [elems, hsz, List.range_succ, List.map_append, List.map_cons, List.map_nil]
    congr 1
    · refine List.map_congr_left fun i hi => ?_
      have hi := List.mem_range.mp hi
      show (if i = (extend junk v).size - 1 then x else (extend junk v).mem i) = _
      rw [r2, if_neg (by omega), r6 i hi]
    · show [if v.size = (extend junk v).size - 1 then x else _] = _
      rw [r2, if_pos (by omega)]

/-- **C44**.  After any number of appends to a new vector, no element was written outside the
allocation, the size is the number of appends, the elements are those appended in order, and there
is room for the size. -/
theorem C44_vector (junk : Nat → α) (xs : List (α × (Nat → α))) :
    let v := appendAll xs (init junk)
    v.oob = false ∧ v.size = xs.length ∧ elems v = xs.map (·.1) ∧ v.size ≤ v.room := by
  have : ∀ (xs : List (α × (Nat → α))) (v : Vec α), Good v →
      Good (appendAll xs v) ∧ elems (appendAll xs v) = elems v ++ xs.map (·.1) := by
    intro xs
    induction xs with
    | nil => intro v g; exact ⟨g, by simp [appendAll]⟩
    | cons p xs ih =>
      intro v g
      obtain ⟨x, j⟩ := p
      obtain ⟨g', e⟩ := append_good g j x
      obtain ⟨h1, h2⟩ := ih _ g'
      exact ⟨h1, by rw [appendAll, h2, e]; simp⟩
  intro v
  have g0 : Good (init junk : Vec α) := ⟨rfl, 0, rfl, Nat.zero_le _, .inl ⟨rfl, rfl⟩⟩
  obtain ⟨g, e⟩ := this xs _ g0
  have e : elems v = xs.map (·.1) := by rw [show elems v = _ from e]; simp [elems, init]
  obtain ⟨k, h1, h2, _⟩ := g.room
  refine ⟨g.nub, ?_, e, by show (appendAll xs (init junk)).size ≤ _; rw [h1]; exact h2⟩
  have := congrArg List.length e
  simpa [elems] using this

example : elems (appendAll [(10, fun _ => 0), (11, fun _ => 0), (12, fun _ => 7)] (init fun _ => 99)) = [10, 11, 12] ∧
    (appendAll [(10, fun _ => 0), (11, fun _ => 0), (12, fun _ => 7)] (init fun _ => 99)).room = 4 := by
  decide +kernel

end Verif.Support.Vector
