import Verif.Host.StdioExample
import Verif.Host.Example
/-
The exception of C82: a program of type `Main@` that gives a number to a function implemented in C that is not defined yet.
-/
namespace Verif.Host.Example
open Verif.Compile Verif.Elab
open Elab.Example (tn vn)

deriving instance DecidableEq for Var
deriving instance DecidableEq for Tc, Tcs, Flds, Brs

/-- ```
(StdioIO@ io) { (Strings@ args) { (World@ w) {
  Int@ x = { RUnit@ o = io.stdout(x, w); Int@(0: Unit@()); };
  RBool@(w, Bool@(true: Unit@()));
}; }; };
``` -/
def undefMain : Module := ⟨[vn "Main"], [], .letE (.kind (.basic 1) (tn "Unit") (.dataType .struct .nil) .nil) (.letE (types stdioTypes)
  (.func (vn "io") (tv "StdioIO") (.func (vn "args") (tv "Strings") (.func (vn "w") (tv "World")
    (.letE (.type (tv "Int") (vn "x") (.letE (.type (tv "RUnit") (vn "o") (.apply (.dataAccess (vv "io") (vn "stdout")) (exprs [vv "x", vv "w"]) false) .nil)
        (.unionValue (tv "Int") (vn "0") (.apply (tv "Unit") .nil false))) .nil)
      (.apply (tv "RBool") (exprs [vv "w", .unionValue (tv "Bool") (vn "true") (.apply (tv "Unit") .nil false)]) false))))))⟩

def typeVals : Nat → Tcs
  | 0 => .nil
  | n + 1 => .cons .typeVal (typeVals n)

def undefBody : Tc := .letE true (.cons (.letE false (.cons (.apply (.apply (.access false (.var (.static 0)) 1) (.var (.loc 0))) (.var (.arg 0))) .nil) (.union 1 (.struct .nil))) .nil)
  (.struct (.cons (.var (.arg 0)) (.cons (.union 0 (.struct .nil)) .nil)))

/-- The program elaborated. -/
def undefTc : Tc := .letE false (.cons .typeVal .nil) (.letE false (typeVals 22)
  (.func [.loc 0, .loc 13] (.func [.arg 0, .static 0, .static 1] (.func [.static 0, .static 1, .static 2] undefBody))))

def isTc (t : Tc) : Types.R (Option (List Tc)) → Bool
  | .ok (some [t']) => t' = t
  | _ => false

theorem isTc_of {t : Tc} : ∀ {r : Types.R (Option (List Tc))}, isTc t r = true → r = .ok (some [t])
  | .ok (some [t']), h => by simp only [isTc, decide_eq_true_eq] at h; rw [h]

theorem undefChecks : tcProgram 300 [undefMain] = .ok (some [undefTc]) := isTc_of (by decide +kernel)

theorem undefTypes : isStdio (atEnd 300 [] [] [undefMain] []) = true := by decide +kernel

theorem undefMono : Monomorphic 300 [undefMain] := by
  unfold Monomorphic
  exact Or.inl (by decide +kernel)

theorem undef_answer (w : World) (v : View) : w.answer [⟨6, [view [none] (.ref 0 : SVal), v]⟩] = .stop := by
  have h : readingInt (view [none] (.ref 0 : SVal)) = .fails := by
    have h1 : readInt (view [none] (.ref 0 : SVal)) = none := rfl
    unfold readingInt
    rw [h1]
    exact if_pos fun n => rfl
  have ho : Op.ofCode 6 = .ostream 0 := rfl
  simp only [World.answer, World.call, ho, h]

/-- The first call: that of stdout, with a number that is not defined. -/
theorem undef_stops (w : World) : meaningProcess [⟨[], undefTc⟩] (stdioHost []) 4 9 w.outside =
    .stop [⟨Op.code (.ostream 0), [view [none] (.ref 0 : SVal), view [none] (.struct [] : SVal)]⟩] := by
  simp [meaningProcess, runProgram, undefTc, undefBody, typeVals, runMods, meaning, eval, evals, capture, Env.get, Res.bind, runHost, stdioHost, stdioIO, list, makes, make, istream, ostream, enum, Op.code, applyAll, apply_func]
  rw [apply_let]
  simp [eval, evals, Env.get, Res.bind, Tc.head, Tc.args, structField, strict_struct, applyAll, apply_more, Tcs.length, newRefs, newRef]
  rw [apply_call]
  simp [callOut, World.outside, undef_answer]

/-- C82 does not hold without its exception: the program has the type `Main@`, and interpreted, whatever the world is, its first call is that of stdout with a number of which nothing is
there: FbleUnionValueTag gives -1 (value.c:1359-1365), and an assertion of FbleIntValueAccess fails (pkgs/core/int.fble.c:82). -/
theorem C82_violated : ∃ tcs, tcProgram 300 [undefMain] = .ok (some tcs) ∧ Monomorphic 300 [undefMain] ∧
    (∀ hf types t, atEnd 300 [] [] [undefMain] [] = .ok (hf, types ++ [some t]) → Nonempty (StdioTypes (openAll hf) t)) ∧
    ∃ mds codes, linkMods [] [undefMain] tcs = some mds ∧ compileAll mds = some codes ∧ ∀ (w : World) depth, ∃ number world : View,
      ended depth (interpretedProcess mds codes (stdioHost []) 4 9 w.outside) = .stopped [⟨Op.code (.ostream 0), [number, world]⟩] ∧ number [] = .nothing := by
  have hm : [(⟨[], undefTc⟩ : Mod)] ≠ [] ∧ progOk 0 [⟨[], undefTc⟩] := by
    simp [undefTc, undefBody, typeVals, progOk, Tc.Scoped, Tcs.Scoped, Var.Ok, Tcs.length]
  obtain ⟨codes, h1, h2⟩ := meaning_interpreted hm.1 hm.2
  refine ⟨_, undefChecks, undefMono, isStdio_of undefTypes, [⟨[], undefTc⟩], codes, rfl, h1, fun w depth => ⟨view [none] (.ref 0 : SVal), view [none] (.struct [] : SVal), ?_, ?_⟩⟩
  · refine (ended_rel (h2 (stdioHost []) 4 9 w.outside) depth).trans ?_
    rw [undef_stops w]
    rfl
  · rfl

end Verif.Host.Example
