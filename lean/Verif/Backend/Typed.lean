import Verif.Backend.CValid
import Verif.Backend.A64Program
import Verif.Safe.Program
/-
From the source of a well typed program to the compiled code.
-/
namespace Verif.Backend
open Verif.Compile
open Verif.Text (Str ch)
open Verif.Elab (tcProgram linkMods ErasesModule runNamedProgram Module)

/-- C62, from the source. A program that type checks (without polymorphism, see C61, and with selects
that the interpreter can run) can be compiled to C, and running the compiled program gives what the
expressions of the source mean by names.  It never uses a value as one of another type. -/
theorem C62_c_source {sg : Bool} {n : Nat} {program : List Module} {tcs : List Tc} (h : tcProgram n program = .ok (some tcs)) (hne : program ≠ [])
    (hm : Elab.Monomorphic n program) :
    ∃ ts, All2 ErasesModule program ts ∧ ((∀ t ∈ ts, t.Tables) → ∃ mds, linkMods [] program tcs = some mds ∧
      ∀ names, All2 (NamesFor sg) mds names → ∃ mods, compileC sg mds names = some mods ∧ (∀ md ∈ mods, md.Valid) ∧ ∀ fuel,
        runCProgram mds mods fuel ≠ .wild ∧ runCProgram mds mods fuel ≠ .crash ∧
        ∀ depth, (runCProgram mds mods fuel).seen depth = (runNamedProgram ((program.map (·.path)).zip ts) fuel).seen depth) := by
  obtain ⟨ts, mds, h1, h2, h3⟩ := Elab.tcProgram_ok h
  refine ⟨ts, h3.erases, fun ht => ?_⟩
  have hmd : mds ≠ [] := by
    intro e
    rw [e] at h3
    cases h3
    exact hne rfl
  refine ⟨mds, h1, fun names hn => ?_⟩
  obtain ⟨mods, g1, g2⟩ := C62_c_program hmd (h3.progOk ht) hn
  refine ⟨mods, g1, C62_c_valid (h3.progOk ht) hn g1, fun fuel => ?_⟩
  obtain ⟨mds', e1, _, e3⟩ := Elab.C61_meaning h hne hm
  rw [h1] at e1
  cases e1
  obtain ⟨k1, k2⟩ := g2 fuel (e3 fuel).1
  exact ⟨k2, not_crash k1 (e3 fuel).1, fun depth => (k1 depth).trans ((Elab.runProgram_rr h3 hne fuel).seen depth)⟩

/-- C64, from the source: the same for AArch64 assembly. -/
theorem C64_a64_source {sg : Bool} {n : Nat} {program : List Module} {tcs : List Tc} (h : tcProgram n program = .ok (some tcs)) (hne : program ≠ [])
    (hm : Elab.Monomorphic n program) :
    ∃ ts, All2 ErasesModule program ts ∧ ((∀ t ∈ ts, t.Tables) → ∃ mds, linkMods [] program tcs = some mds ∧
      ∀ names locs, All2 (NamesFor sg) mds names → ∃ mods, compileA sg mds names locs = some mods ∧ ∀ profiling fuel,
        runAProgram mds mods profiling fuel ≠ .wild ∧ runAProgram mds mods profiling fuel ≠ .crash ∧
        ∀ depth, (runAProgram mds mods profiling fuel).seen depth = (runNamedProgram ((program.map (·.path)).zip ts) fuel).seen depth) := by
  obtain ⟨ts, mds, h1, h2, h3⟩ := Elab.tcProgram_ok h
  refine ⟨ts, h3.erases, fun ht => ?_⟩
  have hmd : mds ≠ [] := by
    intro e
    rw [e] at h3
    cases h3
    exact hne rfl
  refine ⟨mds, h1, fun names locs hn => ?_⟩
  obtain ⟨mods, g1, g2⟩ := C64_a64_program locs hmd (h3.progOk ht) hn
  refine ⟨mods, g1, fun profiling fuel => ?_⟩
  obtain ⟨mds', e1, _, e3⟩ := Elab.C61_meaning h hne hm
  rw [h1] at e1
  cases e1
  obtain ⟨k1, k2⟩ := g2 profiling fuel (e3 fuel).1
  exact ⟨k2, not_crash k1 (e3 fuel).1, fun depth => (k1 depth).trans ((Elab.runProgram_rr h3 hne fuel).seen depth)⟩

/-- The example of C13, compiled to assembly, has the value it should have, profiling or not. -/
theorem C64_example (locs : Nat → Nat → Nat → SrcLoc) : ∃ mods, compileA true exampleProgram exampleNames locs = some mods ∧
    ∀ profiling, (runAProgram exampleProgram mods profiling 6).seen 9 = .value (.union 0 (.struct [])) := by
  have hp : exampleProgram ≠ [] ∧ progOk 0 exampleProgram := by
    simp [exampleProgram, progOk, Tc.Scoped, Tcs.Scoped, Brs.Scoped, Brs.Table, Brs.sortedFrom, Brs.tagsBelow, Var.Ok, Tcs.length]
  obtain ⟨mods, h1, h2⟩ := C64_a64_program locs hp.1 hp.2 example_names
  exact ⟨mods, h1, fun profiling => ((h2 profiling 6 (fun h => by have := example_value; rw [h] at this; cases this)).1 9).trans example_value⟩

/-- A function that accesses a field of its argument: run on a union with another tag while profiling,
it enters its block, reports the error and aborts. -/
theorem C64_function_example (statics : List (GVal CBody)) (call : CallFn CBody) (s : St (GFn CBody)) :
    let code : Code := .mk 1 0 1 [.unionAccess (.arg 0) 3 0, .ret (.loc 0)] [[.enter 0], []]
    ∃ f, emitCodeA true [[ch 'f']] 0 (fun pc => ⟨[ch 'x'], 7, pc⟩) code = some f ∧
      Ends ⟨0, f.body, statics, [.union 2 (.struct [])], true, call⟩ f.body (entry ⟨0, f.body, statics, [.union 2 (.struct [])], true, call⟩) s
        (.abort, [.prof (.enter 0), .report ⟨[ch 'x'], 7, 0⟩ .wrongUnionTag]) := by
  intro code
  obtain ⟨r, hr⟩ : ∃ r, runNameA true [[ch 'f']] 0 = some r := ⟨_, by
    rw [runNameA, List.getElem?_cons_zero, Option.bind_some, Gen.functionLabel, Gen.sanitize_some _ _ (by intro b hb; simp at hb; subst hb; exact .inr (by decide))]
    rfl⟩
  have he : ∃ f, emitCodeA true [[ch 'f']] 0 (fun pc => ⟨[ch 'x'], 7, pc⟩) code = some f := by
    simp only [emitCodeA, hr, Option.bind_some]
    exact ⟨_, rfl⟩
  obtain ⟨f, hf⟩ := he
  refine ⟨f, hf, ?_⟩
  have ok : CodeOk code.numLocals code.instrs := by
    refine ⟨fun i hi d hd => ?_, fun pc i hi t ht => ?_, fun c off scope d hm => ?_, fun c nt ts d hm => ?_⟩
    · simp [code, Code.instrs] at hi
      rcases hi with rfl | rfl <;> simp [Instr.writes] at hd
      subst hd
      exact Nat.one_pos
    · match pc, hi with
      | 0, hi => cases hi; simp [Instr.succ] at ht; subst ht; exact ⟨by omega, by show 1 < 2; omega⟩
      | 1, hi => cases hi; simp [Instr.succ] at ht
    · simp [code, Code.instrs] at hm
    · simp [code, Code.instrs] at hm
  have hv : interpret (genBodyA true [[ch 'f']] 0 0) code call statics [.union 2 (.struct [])] s = .abort := by
    rw [interpret, gexec_at (i := .unionAccess (.arg 0) 3 0) rfl]
    rfl
  refine (C64_a64_function hf ok ⟨0, f.body, statics, [.union 2 (.struct [])], true, call⟩ rfl s (by rw [hv]; simp) (by rw [hv]; simp) _).mpr ?_
  show _ = (interpret (genBodyA true [[ch 'f']] 0 0) code call statics [.union 2 (.struct [])] s, _)
  rw [hv]
  rw [interpretLog, gtrace_at (i := .unionAccess (.arg 0) 3 0) rfl]
  rfl

end Verif.Backend
