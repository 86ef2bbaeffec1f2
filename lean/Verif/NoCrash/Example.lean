import Verif.NoCrash.Source
import Verif.Whole.Example
/-
Programs for the properties about crashes of the type checker, and programs that crash it.
-/
namespace Verif.NoCrash
open Types Elab

def tn (s : String) : Name := ⟨s.toList, true⟩
def vn (s : String) : Name := ⟨s.toList, false⟩

/-- A recursive type, a recursive function with a select, and a type error in the end:
```
@ L@ = +(L@ cons, *() nil);
(L@) { L@; } f = (L@ x) { x.?(cons: f(x.cons), nil: x); };
f(f)
``` -/
def listProgram (last : Expr) : List Module := [⟨[vn "M"], [],
  .letE (.kind (.basic 1) (tn "L") (.dataType .union (.cons (vn "cons") (.var (tn "L")) (.cons (vn "nil") (.dataType .struct .nil) .nil))) .nil)
  (.letE (.type (.funcType (.var (tn "L")) (.var (tn "L"))) (vn "f") (.func (vn "x") (.var (tn "L"))
      (.select (.var (vn "x")) (.cons (vn "cons") (.apply (.var (vn "f")) (.cons (.dataAccess (.var (vn "x")) (vn "cons")) .nil) false) (.cons (vn "nil") (.var (vn "x")) .nil)) .none)) .nil)
   last)⟩]

/-- With a type error: `f(f)`. -/
def bad : Expr := .apply (.var (vn "f")) (.cons (.var (vn "f")) .nil) false

example : ∀ n, tcProgram n (listProgram bad) ≠ .fail :=
  C71_no_crash (by intro m hm; simp only [listProgram, List.mem_singleton] at hm; subst hm; decide +kernel)
    (by intro m hm; simp only [listProgram, List.mem_singleton] at hm; subst hm; decide +kernel)

def outcome : R (Option (List Compile.Tc)) → Option Bool
  | .ok (some _) => some true
  | .ok none => some false
  | _ => none

example (n : Nat) : Elab.tcProgram n (Whole.modules Whole.Example.program) ≠ .fail := C71_loaded Whole.Example.loaded (by decide +kernel) n

-- One is accepted, the other rejected.
example : outcome (tcProgram 30 (listProgram (.var (vn "f")))) = some true := by decide +kernel
example : outcome (tcProgram 30 (listProgram bad)) = some false := by decide +kernel

example : ∃ N, ∀ n, N ≤ n → ∃ r, tcProgram n (listProgram bad) = .ok r :=
  ⟨_, C72_ends (by intro m hm; simp only [listProgram, List.mem_singleton] at hm; subst hm; decide +kernel)
    (by intro m hm; simp only [listProgram, List.mem_singleton] at hm; subst hm; decide +kernel)⟩

/-- ```
<@>@ Id@ = <@ T@> { T@; };
<<@>@>@ H@ = <<@>@ F@> { @ A@ = F@<A@>; A@; };
(H@<Id@> x) { x.foo; };
``` -/
def fixProgram : List Module :=
  let k : Kind := .poly (.basic 1) (.basic 1)
  [⟨[vn "M"], [],
    .letE (.kind k (tn "Id") (.polyValue (tn "T") (.basic 1) (.var (tn "T"))) .nil)
    (.letE (.kind (.poly k (.basic 1)) (tn "H") (.polyValue (tn "F") k
       (.letE (.kind (.basic 1) (tn "A") (.polyApply (.var (tn "F")) (.var (tn "A"))) .nil) (.var (tn "A")))) .nil)
     (.func (vn "x") (.polyApply (.var (tn "H")) (.var (tn "Id"))) (.dataAccess (.var (vn "x")) (vn "foo"))))⟩]

/-- C71: with polymorphism the type checker can crash.  The type `@ A@ = F@<A@>` is not found vacuous (typecheck.c:1192-1200) where `F@` is any type; for
`F@` the identity it has no normal form, and the assertion of `FbleNormalType` (type.c:1045-1050) fails. -/
theorem C71_violated : (∀ m ∈ fixProgram, m.value.chosen = true) ∧ (∀ m ∈ fixProgram, ∀ p ∈ Whole.emods m.value, p ∈ m.deps) ∧ tcProgram 40 fixProgram = .fail := by
  decide +kernel

/-- `@ U@ = *(); @(a: U@()).@(a: nope)` -/
def copyProgram : List Module := [⟨[vn "M"], [],
  .letE (.kind (.basic 1) (tn "U") (.dataType .struct .nil) .nil)
  (.structCopy (.structImplicit (.cons (vn "a") (.apply (.var (tn "U")) .nil false) .nil)) (.cons (vn "a") (.var (vn "nope")) .nil))⟩]

/-- C71: a struct copy with a field that has a type error crashes the type checker (typecheck.c:1310-1348). -/
theorem C71_copy_violated : (∀ m ∈ copyProgram, m.value.chosen = true) ∧ (∀ m ∈ copyProgram, ∀ p ∈ Whole.emods m.value, p ∈ m.deps) ∧ tcProgram 40 copyProgram = .fail := by
  decide +kernel

end Verif.NoCrash
