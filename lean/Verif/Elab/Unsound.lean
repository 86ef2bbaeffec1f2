import Verif.Elab.C17
/-
A program that type checks and goes wrong.
-/
namespace Verif.Elab
open Types
open Compile (Var Tc Tcs Flds Brs Res)
namespace Example

/-- The kind `<@>@`. -/
def poly1 : Kind := .poly (.basic 1) (.basic 1)
def tv (s : String) : Expr := .var (tn s)
def vv (s : String) : Expr := .var (vn s)
def fn1 (x : String) (t b : Expr) : Expr := .func (vn x) t b
def app (f a : Expr) : Expr := .apply f (.cons a .nil) false
/-- `(x@) { Bool@; }` -/
def pred (x : String) : Expr := .funcType (tv x) (tv "Bool")
/-- `<@ x@>(x@) { ((c@) { Bool@; }) { rest; }; }` -/
def step (x c : String) (rest : Expr) : Expr := .polyValue (tn x) (.basic 1) (.funcType (tv x) (.funcType (pred c) rest))

/--
```
@ Unit@ = *();
@ Bool@ = +(Unit@ true, Unit@ false);
<@>@ K@ = <@ Z@>(Z@) { Bool@; };
<<@>@><@>@ H@ = <<@>@ T@> <@ U@>(U@) { ((U@) { Bool@; }) { T@; }; };
H@<H@<K@>> p = <@ U@>(U@ u, (U@) { Bool@; } c) { <@ W@>(W@ v, (W@) { Bool@; } d) { <@ Z@>(Z@ z) { d(v); }; }; };
<@ V@>(V@) { ((V@) { Bool@; }) { <@ W@>(W@) { ((V@) { Bool@; }) { K@; }; }; }; } q = p;
(Bool@) { Bool@; } not = (Bool@ b) { b.?(true: false, false: true); };
q<Bool@>(true, not)<Unit@>(Unit@(), not)<Bool@>(true);
```
The types of `p` and `q` are different: with that of `p` the last consumer is a function of `W@`, with
that of `q` it is a function of `V@`. -/
def unsound : Module := ⟨[vn "Bad"], [], withTypes (
  .letE (.kind poly1 (tn "K") (.polyValue (tn "Z") (.basic 1) (.funcType (tv "Z") (tv "Bool"))) .nil) (
  .letE (.kind (.poly poly1 poly1) (tn "H") (.polyValue (tn "T") poly1 (step "U" "U" (tv "T"))) .nil) (
  .letE (.type (.polyApply (tv "H") (.polyApply (tv "H") (tv "K"))) (vn "p")
    (.polyValue (tn "U") (.basic 1) (fn1 "u" (tv "U") (fn1 "c" (pred "U")
      (.polyValue (tn "W") (.basic 1) (fn1 "v" (tv "W") (fn1 "d" (pred "W")
        (.polyValue (tn "Z") (.basic 1) (fn1 "z" (tv "Z") (app (vv "d") (vv "v")))))))))) .nil) (
  .letE (.type (step "V" "V" (.polyValue (tn "W") (.basic 1) (.funcType (tv "W") (.funcType (pred "V") (tv "K"))))) (vn "q") (vv "p") .nil) (
  .letE (.type (.funcType (tv "Bool") (tv "Bool")) (vn "not") (fn1 "b" (tv "Bool")
    (.select (vv "b") (.cons (vn "true") (bool "false") (.cons (vn "false") (bool "true") .nil)) .none)) .nil) (
  app (.polyApply (app (app (.polyApply (app (app (.polyApply (vv "q") (tv "Bool")) (bool "true")) (vv "not")) (tv "Unit")) unit) (vv "not")) (tv "Bool")) (bool "true")))))))⟩

/-- What the type checker makes of it: nothing is left of the polymorphism. -/
def unsoundTc : Tc :=
  .letE false (.cons .typeVal .nil) (.letE false (.cons .typeVal .nil) (.letE false (.cons .typeVal .nil) (.letE false (.cons .typeVal .nil)
    (.letE false (.cons (.func [] (.func [] (.func [] (.func [.arg 0] (.func [.arg 0, .static 0] (.apply (.var (.static 0)) (.var (.static 1)))))))) .nil)
      (.letE false (.cons (.var (.loc 4)) .nil)
        (.letE false (.cons (.func [.loc 0] (.select (.var (.arg 0)) 2 (.cons 0 (.union 1 (.struct .nil)) .nil) (.union 0 (.struct .nil)))) .nil)
          (.apply (.apply (.apply (.apply (.apply (.var (.loc 5)) (.union 0 (.struct .nil))) (.var (.loc 6))) (.struct .nil)) (.var (.loc 6)))
            (.union 0 (.struct .nil)))))))))

theorem unsound_checked : tcProgram 40 [unsound] = .ok (some [unsoundTc]) := by decide +kernel

open Compile

theorem apply_func (sc : List Var) (b : Tc) (statics : List SVal) (a : SVal) (n : Nat) (refs : List (Option SVal)) (out : Outside) (vs : List SVal)
    (h : capture ⟨statics, [a], []⟩ sc = some vs) : Compile.apply (.fn (.clo (.func sc b) statics)) a ⟨n, refs, out⟩ = .ok (.fn (.clo b vs)) ⟨n, refs, out⟩ := by
  rw [Compile.apply, strict_fn]
  simp [Res.bind, h]

theorem apply_apply (f x : Tc) (statics : List SVal) (a : SVal) (n : Nat) (refs : List (Option SVal)) (out : Outside) :
    Compile.apply (.fn (.clo (.apply f x) statics)) a ⟨n + 1, refs, out⟩ =
      eval (fun f a s' => if s'.fuel < n + 1 then Compile.apply f a s' else .oof) (.apply f x) ⟨statics, [a], []⟩ ⟨n, refs, out⟩ := by
  rw [apply_body (g := .clo (.apply f x) statics) rfl (by simp)]
  simp [SFn.body, SFn.statics]

theorem unsound_meaning : runProgram [⟨[], unsoundTc⟩] 9 = .crash := by
  simp [runProgram, unsoundTc, runMods, meaning, eval, evals, Tcs.length, capture, Env.get, Res.bind, unwrap, Tc.head, Tc.args, applyAll,
    apply_func, apply_apply, apply_select, strict, tagBelow, unionTag]

/-- A program that type checks and compiles; running it looks for the tag of a struct value. -/
theorem unsound_crashes : ∃ mds codes, linkMods [] [unsound] [unsoundTc] = some mds ∧ compileAll mds = some codes ∧ runMachine mds codes 9 = .crash := by
  refine ⟨[⟨[], unsoundTc⟩], ?_⟩
  obtain ⟨codes, h1, h2⟩ := C13_compiled_program (ms := [⟨[], unsoundTc⟩]) (by simp)
    (by simp [unsoundTc, progOk, Tc.Scoped, Tcs.Scoped, Brs.Scoped, Brs.Table, Brs.sortedFrom, Brs.tagsBelow, Var.Ok, Tcs.length])
  refine ⟨codes, rfl, h1, ?_⟩
  have h := (h2 9).1 0
  rw [unsound_meaning] at h
  generalize runMachine [⟨[], unsoundTc⟩] codes 9 = r at h
  cases r <;> simp [Res.seen] at h
  rfl

end Example

/-- C61 does not hold for polymorphic programs: there is a program that type checks and compiles, and that
looks for the tag of a struct value when it is run. -/
theorem C61_violated : ∃ (m : Module) (tc : Tc) (mds : List Compile.Mod) (codes : List (Compile.Code)),
    (∃ fuel, tcProgram fuel [m] = .ok (some [tc])) ∧ linkMods [] [m] [tc] = some mds ∧ Compile.compileAll mds = some codes ∧
      ∃ fuel, Compile.runMachine mds codes fuel = .crash := by
  obtain ⟨mds, codes, h1, h2, h3⟩ := Example.unsound_crashes
  exact ⟨Example.unsound, Example.unsoundTc, mds, codes, ⟨40, Example.unsound_checked⟩, h1, h2, 9, h3⟩

end Verif.Elab
