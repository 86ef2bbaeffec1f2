import Verif.NoCrash.Fuel
import Verif.NoCrash.Example
/-
The verdict of the type checker on a program.
-/
namespace Verif.NoCrash
open Types Elab

/-- C72: the fuel is only a bound: for every program, with or without polymorphism, a result of the type checker (also a failed assertion) stays the same when there is more
fuel. -/
theorem C72_fuel {program : List Module} {n m : Nat} (h : n ≤ m) (hr : tcProgram n program ≠ .more) : tcProgram m program = tcProgram n program := by
  rcases Fuel.tcProgram_le h program with e | e
  · exact absurd e hr
  · exact e.symm

/-- C72: type checking a program ends with exactly one verdict: the program that it stands for, or errors. -/
theorem C72_verdict {program : List Module} (h1 : ∀ m ∈ program, m.value.simple = true ∧ m.value.chosen = true) (h2 : ∀ m ∈ program, ∀ p ∈ Whole.emods m.value, p ∈ m.deps) :
    ∃ r, ∀ n r', (tcProgram n program = .ok r' → r' = r) ∧ (need (program.map fun m => m.value.cost).sum ≤ n → tcProgram n program = .ok r) := by
  obtain ⟨r, hr⟩ := C72_ends h1 h2 _ (Nat.le_refl _)
  refine ⟨r, fun n r' => ⟨fun hn => ?_, fun hn => ?_⟩⟩
  · rcases Nat.le_total n (need (program.map fun m => m.value.cost).sum) with h | h
    · have := C72_fuel (program := program) h (by rw [hn]; simp)
      rw [hr, hn] at this
      simpa using this.symm
    · have := C72_fuel (program := program) h (by rw [hr]; simp)
      rw [hr, hn] at this
      simpa using this
  · rw [C72_fuel hn (by rw [hr]; simp), hr]

/-- With polymorphism: the crash of C71 happens with all fuels from 40 on. -/
example (n : Nat) (h : 40 ≤ n) : tcProgram n fixProgram = .fail := by
  have := C71_violated.2.2
  rw [C72_fuel h (by rw [this]; simp), this]

/-- The program with the type error is rejected with all large fuels. -/
example : ∃ N, ∀ n, N ≤ n → tcProgram n (listProgram bad) = .ok none := by
  refine ⟨30, fun n hn => ?_⟩
  have : tcProgram 30 (listProgram bad) = .ok none := by decide +kernel
  rw [C72_fuel hn (by rw [this]; simp), this]

end Verif.NoCrash
