import Verif.Elab.Program
/-
C16 and the whole way from expressions to bytecode (C60).
-/
namespace Verif.Elab
open Types (Name Kind DataKind Ptr Heap R)
open Compile (Var Tc Tcs Flds Brs Val St Res SFn SVal SRes Env Mod)

theorem ModsOk.erases {done ms ts mds} (h : ModsOk done ms ts mds) : All2 ErasesModule ms ts := by
  induction h with
  | nil => exact .nil
  | cons h _ ih => exact .cons h.erases ih

theorem linkMods_bodies : {done ms : List Module} → {tcs : List Tc} → {mds : List Mod} → linkMods done ms tcs = some mds → ms.length = tcs.length → mds.map (·.body) = tcs
  | _, [], [], _, h, _ => by simp [linkMods] at h; subst h; rfl
  | done, m :: ms, tc :: tcs, mds, h, hl => by
    simp only [linkMods, bind, Option.bind_eq_some_iff] at h
    obtain ⟨ds, _, rest, h2, h⟩ := h
    cases h
    simp [linkMods_bodies h2 (by simpa using hl)]
  | _, [], _ :: _, _, _, h => by simp at h
  | _, _ :: _, [], _, _, h => by simp at h

theorem allSome_length {α : Type} : {os : List (Option α)} → {as : List α} → allSome os = some as → os.length = as.length
  | [], _, h => by simp [allSome] at h; subst h; rfl
  | o :: os, as, h => by
    obtain ⟨a, as', _, h2, rfl⟩ := allSome_cons h
    simp [allSome_length h2]

theorem tcModules_length {n : Nat} : (ms : List Module) → {done : List Module} → {types : List (Option Ptr)} → {h : Heap} → {rs : List (Option Tc)} →
    tcModules n done types ms h = .ok rs → rs.length = ms.length
  | [], _, _, _, _, hr => by simp only [tcModules] at hr; cases hr; rfl
  | m :: ms, _, _, _, _, hr => by
    simp only [tcModules] at hr
    obtain ⟨⟨h1, r⟩, _, hr⟩ := R.bind_ok.mp hr
    obtain ⟨rs', h3, hr⟩ := R.bind_ok.mp hr
    cases hr
    simp [tcModules_length ms h3]

theorem tcProgram_ok {n : Nat} {program : List Module} {tcs : List Tc} (h : tcProgram n program = .ok (some tcs)) :
    ∃ ts mds, linkMods [] program tcs = some mds ∧ mds.map (·.body) = tcs ∧ ModsOk [] program ts mds := by
  unfold tcProgram at h
  obtain ⟨rs, h1, h⟩ := R.bind_ok.mp h
  have h : allSome rs = some tcs := R.ok.inj h
  obtain ⟨ts, mds, h2, h3⟩ := tcModules_ok program h1 h ⟨[], by constructor <;> simp⟩
  exact ⟨ts, mds, h2, linkMods_bodies h2 (by rw [← allSome_length h, tcModules_length program h1]), h3⟩

/-- C16. The type checker turns names into positions.  What it makes of the modules of a program runs
like what is left of their expressions without types, where variables are looked up by name, the
innermost first, functions remember all variables in scope, fields are found by their names and
modules by their paths: with the same result, whatever it is.  Every variable found that way has a value. -/
theorem C16_names {n : Nat} {program : List Module} {tcs : List Tc} (h : tcProgram n program = .ok (some tcs)) (hne : program ≠ []) :
    ∃ ts mds, All2 ErasesModule program ts ∧ linkMods [] program tcs = some mds ∧ mds.map (·.body) = tcs ∧
      ∀ fuel, runNamedProgram ((program.map (·.path)).zip ts) fuel ≠ .wild ∧
        ∀ depth, (Compile.runProgram mds fuel).seen depth = (runNamedProgram ((program.map (·.path)).zip ts) fuel).seen depth := by
  obtain ⟨ts, mds, h1, h2, h3⟩ := tcProgram_ok h
  refine ⟨ts, mds, h3.erases, h1, h2, fun fuel => ?_⟩
  have := runProgram_rr h3 hne fuel
  refine ⟨fun hw => ?_, this.seen⟩
  rw [hw] at this
  generalize Compile.runProgram mds fuel = r at this
  cases this

theorem ModsOk.progOk {done ms ts mds} (h : ModsOk done ms ts mds) (ht : ∀ t ∈ ts, t.Tables) : Compile.progOk done.length mds := by
  induction h with
  | nil => trivial
  | @cons done m ms t ts md mds hm _ ih =>
    refine ⟨fun d hd => ?_, ?_, ?_⟩
    · obtain ⟨p, _, hp⟩ := hm.deps.mem_right hd
      obtain ⟨_, h1, _⟩ := findModule_lt hp
      exact (List.getElem?_eq_some_iff.mp h1).1
    · obtain ⟨cx, h1, h2⟩ := hm.conv
      refine h2.scoped (ht t (by simp)) rfl fun x v hx => ?_
      obtain ⟨i, d, h3, _, rfl⟩ := h1 x v hx
      show i < md.deps.length
      rw [← hm.deps.length_eq]
      exact (List.getElem?_eq_some_iff.mp h3).1
    · have := ih fun t h => ht t (by simp [h])
      simpa using this

/-- C60. A program that passes the type checker compiles, and running the linked bytecode gives what
the program means by names, as far as it can be seen; unless there is a select that the interpreter
cannot run. -/
theorem C60_program {n : Nat} {program : List Module} {tcs : List Tc} (h : tcProgram n program = .ok (some tcs)) (hne : program ≠ []) :
    ∃ ts, All2 ErasesModule program ts ∧ ((∀ t ∈ ts, t.Tables) → ∃ mds codes, linkMods [] program tcs = some mds ∧ Compile.compileAll mds = some codes ∧
      ∀ fuel, Compile.runMachine mds codes fuel ≠ .wild ∧
        ∀ depth, (Compile.runMachine mds codes fuel).seen depth = (runNamedProgram ((program.map (·.path)).zip ts) fuel).seen depth) := by
  obtain ⟨ts, mds, h1, h2, h3⟩ := tcProgram_ok h
  refine ⟨ts, h3.erases, fun ht => ?_⟩
  have hm : mds ≠ [] := by
    intro e
    rw [e] at h3
    cases h3
    exact hne rfl
  obtain ⟨codes, g1, g2⟩ := Compile.C13_compiled_program hm (h3.progOk ht)
  refine ⟨mds, codes, h1, g1, fun fuel => ⟨(g2 fuel).2, ?_⟩⟩
  exact fun depth => ((g2 fuel).1 depth).trans ((runProgram_rr h3 hne fuel).seen depth)

/-! ### An example -/

namespace Example

deriving instance DecidableEq for Tc, Tcs, Flds, Brs

def tn (s : String) : Name := ⟨s.toList, true⟩
def vn (s : String) : Name := ⟨s.toList, false⟩

/-- `@ Unit@ = *(); @ Bool@ = +(Unit@ true, Unit@ false); body` -/
def withTypes (body : Expr) : Expr :=
  .letE (.kind (.basic 1) (tn "Unit") (.dataType .struct .nil) .nil)
    (.letE (.kind (.basic 1) (tn "Bool") (.dataType .union (.cons (vn "true") (.var (tn "Unit")) (.cons (vn "false") (.var (tn "Unit")) .nil))) .nil) body)

def unit : Expr := .apply (.var (tn "Unit")) .nil false
def bool (x : String) : Expr := .unionValue (.var (tn "Bool")) (vn x) unit

/-- `(Bool@ x) { (Bool@ y) { (Bool@ x) { x.?(true: y, false: x); } (x); }; }`: the inner function
captures `y`, and its `x` hides the outer one. -/
def lib : Module := ⟨[vn "Lib"], [], withTypes (.func (vn "x") (.var (tn "Bool")) (.func (vn "y") (.var (tn "Bool"))
  (.apply (.func (vn "x") (.var (tn "Bool")) (.select (.var (vn "x")) (.cons (vn "true") (.var (vn "y")) (.cons (vn "false") (.var (vn "x")) .nil)) .none))
    (.cons (.var (vn "x")) .nil) false)))⟩

/-- `/Lib%(Bool@(true: Unit@()), Bool@(false: Unit@()))` -/
def main : Module := ⟨[vn "Main"], [[vn "Lib"]], withTypes (.apply (.modulePath [vn "Lib"]) (.cons (bool "true") (.cons (bool "false") .nil)) false)⟩

/-- The inner `x` is argument 0, `y` is captured from argument 0 of the function around. -/
theorem checked : tcProgram 20 [lib, main] = .ok (some [
    .letE false (.cons .typeVal .nil) (.letE false (.cons .typeVal .nil) (.func [] (.func [.arg 0]
      (.apply (.func [.arg 0] (.select (.var (.arg 0)) 2 (.cons 0 (.var (.static 0)) .nil) (.var (.arg 0)))) (.var (.static 0)))))),
    .letE false (.cons .typeVal .nil) (.letE false (.cons .typeVal .nil)
      (.apply (.apply (.var (.arg 0)) (.union 0 (.struct .nil))) (.union 1 (.struct .nil))))]) := by
  decide +kernel

example : ∃ tcs, tcProgram 20 [lib, main] = .ok (some tcs) ∧ [lib, main] ≠ [] := ⟨_, checked, by simp⟩

end Example

end Verif.Elab
