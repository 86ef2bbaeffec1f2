import Mathlib.Tactic.Common
/-
GetLine of /repo/bin/fble-perf-profile.c: C49.

SIMPLIFIED: a file is the list of its bytes; realloc does not fail, keeps what fits and leaves the
rest arbitrary.
-/
namespace Verif.Support.GetLine

/-- String, fble-perf-profile.c:21-25.  The memory has `capacity` bytes; `oob` tells whether a byte
outside of it was written. -/
structure Str where
  size : Nat
  capacity : Nat
  mem : Nat → UInt8
  oob : Bool

/-- `line->chars[i] = c`. -/
def write (i : Nat) (c : UInt8) (l : Str) : Str :=
  { l with mem := fun j => if j = i then c else l.mem j, oob := l.oob || decide (l.capacity ≤ i) }

/-- The growth of the buffer, fble-perf-profile.c:51-54. -/
def grow (junk : Nat → UInt8) (l : Str) : Str :=
  if l.size = l.capacity then
    { l with capacity := 2 * (l.capacity + 1), mem := fun i => if i < l.capacity then l.mem i else junk i }
  else l

/-- The loop, fble-perf-profile.c:50-57: returns the rest of the file and whether it stopped at a
newline. -/
def loop (junk : Nat → UInt8) : List UInt8 → Str → List UInt8 × Bool × Str
  | [], l => ([], false, l)
  | c :: cs, l =>
    if c = 10 then (cs, true, l)
    else
      let l := grow junk l
      let l := write l.size c l
      loop junk cs { l with size := l.size + 1 }

/-- GetLine, fble-perf-profile.c:45-60. -/
def getLine (junk : Nat → UInt8) (file : List UInt8) (l : Str) : List UInt8 × Bool × Str :=
  let r := loop junk file { l with size := 0 }
  (r.1, r.2.1, write r.2.2.size 0 r.2.2)

/-! ### Specification -/

/-- The first line of a file, without its newline. -/
def firstLine (file : List UInt8) : List UInt8 := file.takeWhile (· != 10)

/-- What the buffer contains: the characters and the terminator. -/
def text (l : Str) : List UInt8 := (List.range l.size).map l.mem

/-- The capacities a buffer of some capacity can grow to. -/
def next (n : Nat) : Nat := 2 * (n + 1)

def nextN : Nat → Nat → Nat
  | 0, n => n
  | k + 1, n => next (nextN k n)

theorem nextN_mono (n : Nat) : ∀ j k, j < k → nextN j n < nextN k n := by
  intro j k h
  induction h with
  | refl => simp only [nextN, next]; omega
  | step _ ih => simp only [nextN, next] at ih ⊢; omega

theorem loop_spec (junk : Nat → UInt8) (cap : Nat) : ∀ (file : List UInt8) (l : Str),
    l.oob = false → l.size ≤ l.capacity →
    (∃ k, l.capacity = nextN k cap ∧ ∀ j < k, nextN j cap < l.size) →
    (loop junk file l).1 = (file.dropWhile (· != 10)).drop 1 ∧
    ((loop junk file l).2.1 = true ↔ (10 : UInt8) ∈ file) ∧
    (loop junk file l).2.2.oob = false ∧
    text (loop junk file l).2.2 = text l ++ firstLine file ∧
    (loop junk file l).2.2.size = l.size + (firstLine file).length ∧
    (loop junk file l).2.2.size ≤ (loop junk file l).2.2.capacity ∧
    ∃ k, (loop junk file l).2.2.capacity = nextN k cap ∧ ∀ j < k, nextN j cap < (loop junk file l).2.2.size := by
  intro file
  induction file with
  | nil => intro l h1 h2 h3; exact ⟨rfl, by simp [loop], h1, by simp [loop, firstLine], by simp [loop, firstLine], h2, h3⟩
  | cons c cs ih =>
    intro l h1 h2 h3
    unfold loop
    split
    · rename_i e
      subst e
      refine ⟨by simp, by simp, h1, by simp [firstLine], by simp [firstLine], h2, h3⟩
    · rename_i e
      dsimp only
      obtain ⟨k, hk, hj⟩ := h3
      have hg : (grow junk l).oob = false ∧ (grow junk l).size = l.size ∧ l.size < (grow junk l).capacity ∧
          (∃ k, (grow junk l).capacity = nextN k cap ∧ ∀ j < k, nextN j cap < l.size + 1) ∧
          ∀ i < l.size, (grow junk l).mem i = l.mem i := by
        unfold grow
        split
        · rename_i hs
          refine ⟨h1, rfl, ?_, ⟨k + 1, ?_, ?_⟩, fun i hi => ?_⟩
          · show l.size < 2 * (l.capacity + 1); omega
          · show 2 * (l.capacity + 1) = _
            rw [hk]; rfl
          · intro j hj'
            rcases Nat.lt_succ_iff_lt_or_eq.mp hj' with h | rfl
            · have := hj j h; omega
            · omega
          · show (if i < l.capacity then l.mem i else junk i) = _
            rw [if_pos (by omega)]
        · rename_i hs
          exact ⟨h1, rfl, by omega, ⟨k, hk, fun j h => Nat.lt_succ_of_lt (hj j h)⟩, fun i _ => rfl⟩
      obtain ⟨g1, g2, g3, g4, g5⟩ := hg
      generalize hl' : ({ write (grow junk l).size c (grow junk l) with
        size := (write (grow junk l).size c (grow junk l)).size + 1 } : Str) = l'
      have e1 : l'.size = l.size + 1 := by rw [← hl']; simp [write, g2]
      have e2 : l'.capacity = (grow junk l).capacity := by rw [← hl']; rfl
      have e3 : l'.oob = false := by rw [← hl']; simp [write, g1, g2]; exact g3
      have e4 : text l' = text l ++ [c] := by
        simp only [text, e1, List.range_succ, List.map_append, List.map_cons, List.map_nil]
        congr 1
        · refine List.map_congr_left fun i hi => ?_
          have hi := List.mem_range.mp hi
          rw [← hl']
          show (if i = (grow junk l).size then c else (grow junk l).mem i) = _
          rw [g2, if_neg (by omega), g5 i hi]
        · rw [← hl']
          show [if l.size = (grow junk l).size then c else _] = _
          rw [g2, if_pos rfl]
      obtain ⟨i1, i2, i3, i4, i5, i6, i7⟩ := ih l' e3 (by omega) (by rw [e1, e2]; exact g4)
      have ef : firstLine (c :: cs) = c :: firstLine cs := by simp [firstLine, e]
      refine ⟨?_, ?_, i3, ?_, ?_, i6, i7⟩
      · rw [i1, List.dropWhile_cons_of_pos (by simpa using e)]
      · rw [i2]
        simp only [List.mem_cons]
        have : ¬ (10 : UInt8) = c := fun h => e h.symm
        simp [this]
      · rw [i4, e4, ef]; simp
      · rw [i5, e1, ef]; simp; omega

/-- **C49**.  Reading a line into a buffer takes exactly the first line from the file, reports
whether there was a newline, and leaves its characters in the buffer, whatever its length; and it
writes outside the buffer (namely the terminator, directly behind it) exactly if the line is as long as
one of the capacities the buffer goes through. -/
theorem C49_getLine (junk : Nat → UInt8) (file : List UInt8) (l : Str) (h : l.oob = false) :
    let r := getLine junk file l
    r.1 = (file.dropWhile (· != 10)).drop 1 ∧
    (r.2.1 = true ↔ (10 : UInt8) ∈ file) ∧
    text r.2.2 = firstLine file ∧ r.2.2.mem (firstLine file).length = 0 ∧
    (r.2.2.oob = true ↔ ∃ k, (firstLine file).length = nextN k l.capacity) := by
  intro r
  obtain ⟨i1, i2, i3, i4, i5, i6, k, i7, i8⟩ := loop_spec junk l.capacity file { l with size := 0 } h
    (Nat.zero_le _) ⟨0, rfl, fun j hj => absurd hj (Nat.not_lt_zero _)⟩
  have hsz : (loop junk file { l with size := 0 }).2.2.size = (firstLine file).length := by
    rw [i5]; simp
  refine ⟨i1, i2, ?_, ?_, ?_⟩
  · have : text r.2.2 = text (loop junk file { l with size := 0 }).2.2 := by
      refine List.map_congr_left fun i hi => ?_
      have hi := List.mem_range.mp hi
      show (if i = (loop junk file { l with size := 0 }).2.2.size then 0 else _) = _
      rw [if_neg]
      exact Nat.ne_of_lt hi
    rw [this, i4]; simp [text]
  · show (if _ = _ then (0 : UInt8) else _) = 0
    rw [if_pos hsz.symm]
  · show ((loop junk file { l with size := 0 }).2.2.oob ||
      decide ((loop junk file { l with size := 0 }).2.2.capacity ≤
        (loop junk file { l with size := 0 }).2.2.size)) = true ↔ _
    rw [i3, Bool.false_or, decide_eq_true_iff, hsz]
    rw [hsz] at i6 i8
    constructor
    · intro h
      exact ⟨k, by omega⟩
    · rintro ⟨m, hm⟩
      rcases Nat.lt_trichotomy m k with h | h | h
      · have := i8 m h; omega
      · rw [i7, ← h]; omega
      · have := nextN_mono l.capacity k m h; omega

/-- **C49**, violated: if the input begins with an empty line the very first call writes outside the
buffer, which is NULL then (fble-perf-profile.c:188-192); so does a first line of two characters. -/
theorem C49_violated (junk : Nat → UInt8) (cs : List UInt8) (mem : Nat → UInt8) (a b : UInt8)
    (ha : a ≠ 10) (hb : b ≠ 10) :
    (getLine junk (10 :: cs) ⟨0, 0, mem, false⟩).2.2.oob = true ∧
    (getLine junk (a :: b :: 10 :: cs) ⟨0, 0, mem, false⟩).2.2.oob = true := by
  constructor
  · refine ((C49_getLine junk _ _ rfl).2.2.2.2).mpr ⟨0, ?_⟩
    simp [firstLine, nextN]
  · refine ((C49_getLine junk _ _ rfl).2.2.2.2).mpr ⟨1, ?_⟩
    simp [firstLine, nextN, next, ha, hb]

/-- Lines of other lengths are read without fault. -/
example : (getLine (fun _ => 9) [97, 98, 99, 10, 100] ⟨0, 0, fun _ => 0, false⟩).2.2.oob = false ∧
    text (getLine (fun _ => 9) [97, 98, 99, 10, 100] ⟨0, 0, fun _ => 0, false⟩).2.2 = [97, 98, 99] := by
  decide +kernel

end Verif.Support.GetLine
