import Verif.Safe.Program
/-
A program that casts to an abstract type of itself.
-/
namespace Verif.Elab
open Types
open Compile (Var Tc Tcs Flds Brs Res)
namespace Example

/--
```
@ Unit@ = *();
@ Bool@ = +(Unit@ true, Unit@ false);
@ P@ = %(Bad);
@ A@ = P@<A@>;
P@.<Bool@>(P@.<A@>(Unit@())).?(true: Unit@(), false: Unit@());
``` -/
def selfAbstract : Module := ⟨[vn "Bad"], [], withTypes (
  .letE (.kind (.basic 1) (tn "P") (.packageType [vn "Bad"]) .nil) (
  .letE (.kind (.basic 1) (tn "A") (.polyApply (tv "P") (tv "A")) .nil) (
  .select (.abstractCast (tv "P") (tv "Bool") (.abstractCast (tv "P") (tv "A") unit)) (.cons (vn "true") unit (.cons (vn "false") unit .nil)) .none)))⟩

/-- What the type checker makes of it. -/
def selfAbstractTc : Tc :=
  .letE false (.cons .typeVal .nil) (.letE false (.cons .typeVal .nil) (.letE false (.cons .typeVal .nil) (.letE false (.cons .typeVal .nil)
    (.select (.struct .nil) 2 (.cons 0 (.struct .nil) .nil) (.struct .nil)))))

theorem selfAbstract_checked : tcProgram 40 [selfAbstract] = .ok (some [selfAbstractTc]) := by decide +kernel

open Compile

theorem selfAbstract_meaning : runProgram [⟨[], selfAbstractTc⟩] 9 = .crash := by
  simp [runProgram, selfAbstractTc, runMods, meaning, eval, evals, Tcs.length, Res.bind, unwrap, strict, tagBelow, unionTag]

theorem selfAbstract_crashes : ∃ mds codes, linkMods [] [selfAbstract] [selfAbstractTc] = some mds ∧ compileAll mds = some codes ∧ runMachine mds codes 9 = .crash := by
  refine ⟨[⟨[], selfAbstractTc⟩], ?_⟩
  obtain ⟨codes, h1, h2⟩ := C13_compiled_program (ms := [⟨[], selfAbstractTc⟩]) (by simp)
    (by simp [selfAbstractTc, progOk, Tc.Scoped, Tcs.Scoped, Brs.Scoped, Brs.Table, Brs.sortedFrom, Brs.tagsBelow, Tcs.length])
  refine ⟨codes, rfl, h1, ?_⟩
  have h := (h2 9).1 0
  rw [selfAbstract_meaning] at h
  generalize runMachine [⟨[], selfAbstractTc⟩] codes 9 = r at h
  cases r <;> simp [Res.seen] at h
  rfl

end Example

/-- C61 does not hold with an abstract type that is defined as itself: a program without polymorphism that
type checks and compiles, and that looks for the tag of a struct value when it is run. -/
theorem C61_cast_violated : ∃ (m : Module) (tc : Tc) (mds : List Compile.Mod) (codes : List (Compile.Code)),
    (∃ fuel, tcProgram fuel [m] = .ok (some [tc])) ∧ linkMods [] [m] [tc] = some mds ∧ Compile.compileAll mds = some codes ∧
      ∃ fuel, Compile.runMachine mds codes fuel = .crash := by
  obtain ⟨mds, codes, h1, h2, h3⟩ := Example.selfAbstract_crashes
  exact ⟨Example.selfAbstract, Example.selfAbstractTc, mds, codes, ⟨40, Example.selfAbstract_checked⟩, h1, h2, 9, h3⟩

/-! ### A program with casts -/

/-- Follows the definition of a type. -/
def properAt (h : Heap) : Nat → Ptr → Bool
  | 0, _ => false
  | n + 1, t =>
    match h[t]? with
    | none => false
    | some (.var _ (some v)) => properAt h n v
    | some (.abstract q u) =>
      match h[q]? with
      | some (.package _ false) => properAt h n u
      | _ => true
    | some _ => true

theorem properAt_is {h : Heap} : (n : Nat) → {t : Ptr} → properAt h n t = true → ∃ q, Is h [] q t
  | 0, _, hp => by simp [properAt] at hp
  | n + 1, t, hp => by
    simp only [properAt] at hp
    split at hp
    · cases hp
    · rename_i hg
      obtain ⟨q, hq⟩ := properAt_is n hp
      exact ⟨q, .value hg hq⟩
    · rename_i hg
      split at hp
      · rename_i hq
        obtain ⟨q, hq'⟩ := properAt_is n hp
        exact ⟨q, .unwrap hg hq hq'⟩
      · rename_i hq
        exact ⟨t, .here (final_normal hg (by simp) rfl fun q t path e he => by cases e; exact hq _ he)⟩
    · rename_i h1 h2 hg
      exact ⟨t, .here (final_normal hg (fun k v e => h1 k v e) rfl fun q t path e => absurd e (h2 q t))⟩

namespace Example

/--
```
@ Unit@ = *();
@ Bool@ = +(Unit@ true, Unit@ false);
@ P@ = %(/Good%);
@ A@ = P@<Bool@>;
A@ a = P@.<A@>(Bool@(true: Unit@()));
P@.<Bool@>(a).?(true: Unit@(), false: Unit@());
``` -/
def castAndBack : Module := ⟨[vn "Good"], [], withTypes (
  .letE (.kind (.basic 1) (tn "P") (.packageType [vn "Good"]) .nil) (
  .letE (.kind (.basic 1) (tn "A") (.polyApply (tv "P") (tv "Bool")) .nil) (
  .letE (.type (tv "A") (vn "a") (.abstractCast (tv "P") (tv "A") (bool "true")) .nil) (
  .select (.abstractCast (tv "P") (tv "Bool") (vv "a")) (.cons (vn "true") unit (.cons (vn "false") unit .nil)) .none))))⟩

def castAndBackTc : Tc :=
  .letE false (.cons .typeVal .nil) (.letE false (.cons .typeVal .nil) (.letE false (.cons .typeVal .nil) (.letE false (.cons .typeVal .nil)
    (.letE false (.cons (.union 0 (.struct .nil)) .nil) (.select (.var (.loc 4)) 2 (.cons 0 (.struct .nil) .nil) (.struct .nil))))))

/-- It meets the hypotheses of C61. -/
theorem castAndBack_ok : tcProgram 40 [castAndBack] = .ok (some [castAndBackTc]) ∧ Monomorphic 40 [castAndBack] := by
  refine ⟨by decide +kernel, .inr ⟨by decide +kernel, ?_⟩⟩
  intro h hh p hp
  have key : (match endHeap 40 [castAndBack] with
    | .ok h => (List.range h.length).all fun p => properAt (openAll h) 9 p
    | _ => true) = true := by decide +kernel
  rw [hh] at key
  exact properAt_is 9 (List.all_eq_true.mp key p (List.mem_range.mpr hp))

end Example

end Verif.Elab
