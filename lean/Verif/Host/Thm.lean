import Verif.Host.Sim
import Verif.Host.Stdio
import Verif.Elab.C16
/-
C77: a program that does input and output does the same, however it is run.
-/
namespace Verif.Host
open Verif.Compile
open Verif.Elab (Module N tcProgram linkMods runNamedProgram ErasesModule)
open Verif.Backend (compileC runCProgram runC compileA runAProgram runA NamesFor SrcLoc CModule AModule CBody GVal GFn)
open Verif.Text (Str)

/-! ### A process: an fble program run by a C program -/

/-- The program as it is written: the meaning of the source (C16). -/
def namedProcess (ms : List (List Types.Name × N)) (host : Program) (steps fuel : Nat) (out : Outside) : Elab.NRes Elab.NVal :=
  (runNamedProgram ms fuel out).bind fun v s => runHost (fun op more => .native op more []) (Elab.applyAllN Elab.applyN) host steps [v] s

/-- The meaning of the elaborated program. -/
def meaningProcess (ms : List Mod) (host : Program) (steps fuel : Nat) (out : Outside) : SRes SVal :=
  (runProgram ms fuel out).bind fun v s => runHost (fun op more => .native op more []) (applyAll apply) host steps [v] s

/-- The program interpreted. -/
def interpretedProcess (ms : List Mod) (codes : List Code) (host : Program) (steps fuel : Nat) (out : Outside) : TRes TVal :=
  (runMachine ms codes fuel out).bind fun v s => runHost .native fcall host steps [v] s

/-- The program compiled to C. -/
def cProcess (ms : List Mod) (mods : List CModule) (host : Program) (steps fuel : Nat) (out : Outside) : Backend.GRes CBody (GVal CBody) :=
  (runCProgram ms mods fuel out).bind fun v s => runHost .native (Backend.gcall (runC mods)) host steps [v] s

/-- The program compiled to AArch64 assembly. -/
noncomputable def a64Process (ms : List Mod) (mods : List AModule) (profiling : Bool) (host : Program) (steps fuel : Nat) (out : Outside) : Backend.GRes CBody (GVal CBody) :=
  (runAProgram ms mods profiling fuel out).bind fun v s => runHost .native (Backend.gcall (runA mods profiling)) host steps [v] s

/-! ### Proofs -/

theorem meaning_interpreted {ms : List Mod} (hne : ms ≠ []) (h : progOk 0 ms) : ∃ codes, compileAll ms = some codes ∧ ∀ host steps fuel out,
    RRel fuel VRel (meaningProcess ms host steps fuel out) (interpretedProcess ms codes host steps fuel out) := by
  obtain ⟨codes, h1, h2⟩ := compiled_rel hne h
  exact ⟨codes, h1, fun host steps fuel out => (h2 fuel out).bind fun a b s s' hv hs hm => host_rel host steps fuel (.cons hv .nil) hs hm⟩

theorem named_meaning {program : List Module} {ts : List N} {mds : List Mod} (h : Elab.ModsOk [] program ts mds) (hne : program ≠ []) (host : Program) (steps fuel : Nat) (out : Outside) :
    Elab.RR Elab.VR (namedProcess ((program.map (·.path)).zip ts) host steps fuel out) (meaningProcess mds host steps fuel out) :=
  (Elab.runProgram_rr h hne fuel out).bind fun _ _ _ _ hv hs => host_named host steps (.cons hv .nil) hs

theorem not_wild {m r r'} (h : RRel m VRel r r') : r' ≠ .wild := by
  intro e
  rw [e] at h
  cases h

theorem crash_rel {m r r'} (h : RRel m VRel r r') (hc : r ≠ .crash) : r' ≠ .crash := by
  intro e
  rw [e] at h
  cases h
  exact hc rfl

theorem crash_named {r r'} (h : Elab.RR Elab.VR r r') (hc : r ≠ .crash) : r' ≠ .crash := by
  intro e
  rw [e] at h
  cases h
  exact hc rfl

theorem stop_iff {F G} {r : Res F (Val F)} {r' : Res G (Val G)} (h : ∀ depth, ended depth r' = ended depth r) (calls : List Call) : r' = .stop calls ↔ r = .stop calls := by
  have := h 0
  cases r <;> cases r' <;> simp_all [ended]

theorem calls_iff {F G} {run : Outside → Res F (Val F)} {run' : Outside → Res G (Val G)} (h : ∀ out depth, ended depth (run' out) = ended depth (run out)) (answer : List Call → Reply)
    (calls : List Call) : MakesCalls run' answer calls ↔ MakesCalls run answer calls :=
  ⟨fun ⟨h1, h2⟩ => ⟨h1, (stop_iff (h _) calls).mp h2⟩, fun ⟨h1, h2⟩ => ⟨h1, (stop_iff (h _) calls).mpr h2⟩⟩

theorem mods_ne {program : List Module} {ts : List N} {mds : List Mod} (h : Elab.ModsOk [] program ts mds) (hne : program ≠ []) : mds ≠ [] := by
  intro e
  rw [e] at h
  cases h
  exact hne rfl

/-- C77, interpreter: a process that interprets a program that type checks ends as its source says, with the same value after the same calls of functions
implemented in C, whatever the C program and these functions do; and it makes the same calls in the same order if it does not end, or ends without a value.
(The premise on selects is that of C60.) -/
theorem C77_interpreted {n : Nat} {program : List Module} {tcs : List Tc} (h : tcProgram n program = .ok (some tcs)) (hne : program ≠ []) :
    ∃ ts, All2 ErasesModule program ts ∧ ((∀ t ∈ ts, t.Tables) → ∃ mds codes, linkMods [] program tcs = some mds ∧ compileAll mds = some codes ∧
      ∀ host steps fuel,
        (∀ out depth, ended depth (interpretedProcess mds codes host steps fuel out) = ended depth (namedProcess ((program.map (·.path)).zip ts) host steps fuel out)) ∧
        (∀ out, interpretedProcess mds codes host steps fuel out ≠ .wild) ∧
        ∀ answer calls, MakesCalls (interpretedProcess mds codes host steps fuel) answer calls ↔
          MakesCalls (namedProcess ((program.map (·.path)).zip ts) host steps fuel) answer calls) := by
  obtain ⟨ts, mds, h1, h2, h3⟩ := Elab.tcProgram_ok h
  refine ⟨ts, h3.erases, fun ht => ?_⟩
  obtain ⟨codes, g1, g2⟩ := meaning_interpreted (mods_ne h3 hne) (h3.progOk ht)
  refine ⟨mds, codes, h1, g1, fun host steps fuel => ?_⟩
  have he : ∀ out depth, ended depth (interpretedProcess mds codes host steps fuel out) = ended depth (namedProcess ((program.map (·.path)).zip ts) host steps fuel out) :=
    fun out depth => (ended_rel (g2 host steps fuel out) depth).trans (ended_named (named_meaning h3 hne host steps fuel out) depth)
  exact ⟨he, fun out => not_wild (g2 host steps fuel out), calls_iff he⟩

/-- What is common to C and assembly. -/
theorem generated_ends {G} {r0 : Elab.NRes Elab.NVal} {r1 : SRes SVal} {r2 : TRes TVal} {R : TFn → G → Prop} {r3 : Res G (Val G)} {m : Nat}
    (h1 : Elab.RR Elab.VR r0 r1) (h2 : RRel m VRel r1 r2) (h3 : Backend.RR R (Backend.VR R) r2 r3) (hc : r0 ≠ .crash) (depth : Nat) : ended depth r3 = ended depth r0 :=
  ((ended_generated h3 (not_wild h2) (crash_rel h2 (crash_named h1 hc)) depth).trans (ended_rel h2 depth)).trans (ended_named h1 depth)

theorem generated_calls {F G} {run : Outside → Res F (Val F)} {run' : Outside → Res G (Val G)} (h : ∀ out, run out ≠ .crash → ∀ depth, ended depth (run' out) = ended depth (run out))
    (answer : List Call → Reply) (calls : List Call) (hm : MakesCalls run answer calls) : MakesCalls run' answer calls := by
  obtain ⟨h1, h2⟩ := hm
  exact ⟨h1, (stop_iff (h _ (by rw [h2]; simp)) calls).mpr h2⟩

/-- C77, C: the same for a program compiled to C, if it does not fail with an assertion (C61); and before it does, it makes the same calls. -/
theorem C77_c {sg : Bool} {n : Nat} {program : List Module} {tcs : List Tc} (h : tcProgram n program = .ok (some tcs)) (hne : program ≠ []) :
    ∃ ts, All2 ErasesModule program ts ∧ ((∀ t ∈ ts, t.Tables) → ∃ mds, linkMods [] program tcs = some mds ∧
      ∀ names, All2 (NamesFor sg) mds names → ∃ mods, compileC sg mds names = some mods ∧ ∀ host steps fuel,
        (∀ out, namedProcess ((program.map (·.path)).zip ts) host steps fuel out ≠ .crash →
          ∀ depth, ended depth (cProcess mds mods host steps fuel out) = ended depth (namedProcess ((program.map (·.path)).zip ts) host steps fuel out)) ∧
        ∀ answer calls, MakesCalls (namedProcess ((program.map (·.path)).zip ts) host steps fuel) answer calls →
          MakesCalls (cProcess mds mods host steps fuel) answer calls) := by
  obtain ⟨ts, mds, h1, h2, h3⟩ := Elab.tcProgram_ok h
  refine ⟨ts, h3.erases, fun ht => ⟨mds, h1, fun names hn => ?_⟩⟩
  obtain ⟨codes, g1, g2⟩ := meaning_interpreted (mods_ne h3 hne) (h3.progOk ht)
  obtain ⟨mods, E, e1, e2, e3⟩ := Backend.compiledC_rel (mods_ne h3 hne) (h3.progOk ht) hn g1
  refine ⟨mods, e1, fun host steps fuel => ?_⟩
  have he : ∀ out, namedProcess ((program.map (·.path)).zip ts) host steps fuel out ≠ .crash → ∀ depth, ended depth (cProcess mds mods host steps fuel out) =
      ended depth (namedProcess ((program.map (·.path)).zip ts) host steps fuel out) :=
    fun out => generated_ends (named_meaning h3 hne host steps fuel out) (g2 host steps fuel out)
      ((e3 fuel out).bind fun _ _ _ _ hv hs => host_generated e2 host steps (.cons hv .nil) hs)
  exact ⟨he, generated_calls he⟩

/-- C77, assembly: the same for a program compiled to AArch64 assembly, profiling or not. -/
theorem C77_a64 {sg : Bool} {n : Nat} {program : List Module} {tcs : List Tc} (h : tcProgram n program = .ok (some tcs)) (hne : program ≠ []) :
    ∃ ts, All2 ErasesModule program ts ∧ ((∀ t ∈ ts, t.Tables) → ∃ mds, linkMods [] program tcs = some mds ∧
      ∀ names locs, All2 (NamesFor sg) mds names → ∃ mods, compileA sg mds names locs = some mods ∧ ∀ profiling host steps fuel,
        (∀ out, namedProcess ((program.map (·.path)).zip ts) host steps fuel out ≠ .crash →
          ∀ depth, ended depth (a64Process mds mods profiling host steps fuel out) = ended depth (namedProcess ((program.map (·.path)).zip ts) host steps fuel out)) ∧
        ∀ answer calls, MakesCalls (namedProcess ((program.map (·.path)).zip ts) host steps fuel) answer calls →
          MakesCalls (a64Process mds mods profiling host steps fuel) answer calls) := by
  obtain ⟨ts, mds, h1, h2, h3⟩ := Elab.tcProgram_ok h
  refine ⟨ts, h3.erases, fun ht => ⟨mds, h1, fun names locs hn => ?_⟩⟩
  obtain ⟨codes, g1, g2⟩ := meaning_interpreted (mods_ne h3 hne) (h3.progOk ht)
  obtain ⟨mods, E, e1, e2⟩ := Backend.compiledA_rel locs (mods_ne h3 hne) (h3.progOk ht) hn g1
  refine ⟨mods, e1, fun profiling host steps fuel => ?_⟩
  have he : ∀ out, namedProcess ((program.map (·.path)).zip ts) host steps fuel out ≠ .crash → ∀ depth, ended depth (a64Process mds mods profiling host steps fuel out) =
      ended depth (namedProcess ((program.map (·.path)).zip ts) host steps fuel out) :=
    fun out => generated_ends (named_meaning h3 hne host steps fuel out) (g2 host steps fuel out)
      (((e2 profiling).2 fuel out).bind fun _ _ _ _ hv hs => host_generated (e2 profiling).1 host steps (.cons hv .nil) hs)
  exact ⟨he, generated_calls he⟩

end Verif.Host
