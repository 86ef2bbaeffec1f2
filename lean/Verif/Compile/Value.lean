import Verif.Util
/-
Values at the level at which the type checker's output, the bytecode and the interpreter see them.
The representation of data (packing, heap objects) is modelled and shown faithful in Verif.Pack;
here structs and unions are trees.  `F` is what a function value is: a closure of the source
language (Verif.Compile.Source) or a closure of the machine (Verif.Compile.Machine).
-/
namespace Verif.Compile

/-- A value: value.c:83-150.  `type` is FbleGenericTypeValue (value.c:1236). -/
inductive Val (F : Type) where
  | type
  | struct (fields : List (Val F))
  | union (tag : Nat) (arg : Val F)
  | ref (r : Nat)
  | fn (f : F)

/-- What a function implemented in C sees at one place of a value: `nothing` is an undefined reference, or no
value. -/
inductive Node where
  | type
  | struct (size : Nat)
  | union (tag : Nat)
  | fn
  | nothing
deriving DecidableEq, Repr

/-- What can be seen of a value by going from it to its fields, again and again: the node at the end of each path.
(A value can be infinite, by references.) -/
abbrev View := List Nat → Node

/-- What a function implemented in C returns: data with its arguments and with new functions implemented in C in it.  `function op more` takes `more + 1` arguments. -/
inductive Made where
  | argument (i : Nat)
  | struct (fields : List Made)
  | union (tag : Nat) (arg : Made)
  | function (op more : Nat)

/-- A call of a function implemented in C, as seen from outside: which function, and what can be seen of its
arguments. -/
structure Call where
  op : Nat
  args : List View

/-- What the outside does at a call: the function returns a value, or NULL, or the process is stopped, or the function uses an argument as a
value of another type than it has (`crash`). -/
inductive Reply where
  | value (m : Made)
  | abort
  | stop
  | crash

/-- The outside of a program: the calls so far, the last one first, and what it answers to the last one.  An outside that has a
state and does not depend on chance is a function of the calls; the functions are all of them. -/
structure Outside where
  calls : List Call
  answer : List Call → Reply

/-- No functions implemented in C are called (or the process is stopped when one is). -/
def Outside.silent : Outside := ⟨[], fun _ => .stop⟩

/-- The state of a run: how many more function bodies may be entered before the run is cut off
(so that a run is a total function; see `Res.oof`), and the reference values allocated so far with
the value assigned to them, if any. -/
structure St (F : Type) where
  fuel : Nat
  refs : List (Option (Val F))
  out : Outside

/-- The result of a run. `abort` is NULL (undefined value used, wrong tag, vacuous value, callee
aborted), `crash` an operation on a value of the wrong kind (which the type checker excludes), `wild`
use of a variable without a value or out of range, a jump that does not go forward within the code,
a failed assertion or a null pointer dereferenced, `oof` cut off, `stop` stopped from outside after some calls. -/
inductive Res (F α : Type) where
  | ok (a : α) (s : St F)
  | abort
  | crash
  | wild
  | oof
  | stop (calls : List Call)

def Res.bind {F α β} (r : Res F α) (k : α → St F → Res F β) : Res F β :=
  match r with
  | .ok a s => k a s
  | .abort => .abort
  | .crash => .crash
  | .wild => .wild
  | .oof => .oof
  | .stop h => .stop h

/-- The unwrap loop of FbleAssignRefValue (value.c:1792-1796), also the loop of StrictValue
(value.c:848-855): follows assigned references.  The count bounds the length of the chain; that the
number of references suffices is C08. -/
def unwrap {F} (refs : List (Option (Val F))) : Nat → Val F → Option (Val F)
  | 0, _ => none
  | n + 1, .ref r =>
    match refs[r]? with
    | some (some v) => unwrap refs n v
    | some none => some (.ref r)
    | none => none
  | _ + 1, v => some v

/-- What a value is after StrictValue (value.c:848-855): NULL for a reference without a value is
`abort`, which is what every caller makes of it. -/
def strict {F} (s : St F) (v : Val F) : Res F (Val F) :=
  match unwrap s.refs (s.refs.length + 1) v with
  | none => .crash
  | some (.ref _) => .abort
  | some v => .ok v s

/-- FbleStructValueField, value.c:1292-1326 (see C01). -/
def structField {F} (v : Val F) (i : Nat) (s : St F) : Res F (Val F) :=
  (strict s v).bind fun v s =>
    match v with
    | .struct fs => match fs[i]? with
      | some w => .ok w s
      | none => .crash
    | _ => .crash

/-- FbleUnionValueTag, value.c:1359-1385 (see C02). -/
def unionTag {F} (v : Val F) (s : St F) : Res F Nat :=
  (strict s v).bind fun v s =>
    match v with
    | .union tag _ => .ok tag s
    | _ => .crash

/-- The tag of the value a select looks at.  SIMPLIFIED: a tag that the type of the value does not have
(`numTags` is the number of its fields, typecheck.c:1536) counts as a value of the wrong kind.  The
interpreter and the C code go to the default then (see C06), the AArch64 code to some branch (see C38). -/
def tagBelow {F} (numTags : Nat) (v : Val F) (s : St F) : Res F Nat :=
  (unionTag v s).bind fun tag s => if tag < numTags then .ok tag s else .crash

/-- FbleUnionValueField, value.c:1419-1454, with the check of its result for the wrong tag
(interpret.c:136-155). -/
def unionField {F} (v : Val F) (i : Nat) (s : St F) : Res F (Val F) :=
  (strict s v).bind fun v s =>
    match v with
    | .union tag a => if tag = i then .ok a s else .abort
    | _ => .crash

/-- FbleNewListValue, value.c:1736-1747 (see C05). -/
def newList {F} : List (Val F) → Val F
  | [] => .union 1 (.struct [])
  | v :: vs => .union 0 (.struct [v, newList vs])

/-- FbleNewLiteralValue, value.c:1763-1774. -/
def newLiteral {F} (letters : List Nat) : Val F :=
  newList (letters.map fun l => .union l (.struct []))

/-- FbleNewRefValue, value.c:1777-1782. -/
def newRef {F} (s : St F) : Val F × St F := (.ref s.refs.length, { s with refs := s.refs ++ [none] })

/-- FbleAssignRefValue, value.c:1785-1806, with the report of a vacuous value (interpret.c:258-269). -/
def assignRef {F} (r : Val F) (v : Val F) (s : St F) : Res F Unit :=
  match r with
  | .ref i =>
    match unwrap s.refs (s.refs.length + 1) v with
    | none => .crash
    | some u =>
      match u with
      | .ref j => if j = i then .abort else .ok () { s with refs := s.refs.set i (some u) }
      | _ => .ok () { s with refs := s.refs.set i (some u) }
  | _ => .crash

/-! ### Functions implemented in C -/

/-- What is seen of a value: FbleStructValueField, FbleUnionValueTag and FbleUnionValueField, which follow references. -/
def view {F} (refs : List (Option (Val F))) : Val F → View
  | v, [] =>
    match unwrap refs (refs.length + 1) v with
    | some .type => .type
    | some (.struct fs) => .struct fs.length
    | some (.union tag _) => .union tag
    | some (.fn _) => .fn
    | _ => .nothing
  | v, i :: path =>
    match unwrap refs (refs.length + 1) v with
    | some (.struct fs) => match fs[i]? with
      | some w => view refs w path
      | none => .nothing
    | some (.union _ a) => view refs a path
    | _ => .nothing

mutual
/-- The value that is made. -/
def make {F} (native : Nat → Nat → F) (args : List (Val F)) : Made → Option (Val F)
  | .argument i => args[i]?
  | .struct ms => (makes native args ms).map .struct
  | .union tag m => (make native args m).map (.union tag)
  | .function op more => some (.fn (native op more))
def makes {F} (native : Nat → Nat → F) (args : List (Val F)) : List Made → Option (List (Val F))
  | [] => some []
  | m :: ms => (make native args m).bind fun v => (makes native args ms).map (v :: ·)
end

/-- A call of a function implemented in C (FbleRunFunction, fble-function.h): such as those of pkgs/core/stdio.fble.c:79-208, which look at
their arguments, do something outside of the program, and return data, some of it from the arguments.  They do not call functions of
the program or tail call.  Returning an argument that there is not is an error of the function (`crash`). -/
def callOut {F} (native : Nat → Nat → F) (op : Nat) (args : List (Val F)) (s : St F) : Res F (Val F) :=
  let calls := ⟨op, args.map (view s.refs)⟩ :: s.out.calls
  match s.out.answer calls with
  | .value m => match make native args m with
    | some v => .ok v { s with out := { s.out with calls := calls } }
    | none => .crash
  | .abort => .abort
  | .stop => .stop calls
  | .crash => .crash

end Verif.Compile
