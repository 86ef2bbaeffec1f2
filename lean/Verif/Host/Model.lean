import Verif.Compile.Program
/-
C programs that run an fble program with functions implemented in C: what pkgs/core/stdio.fble.c does, and any program like it.
-/
namespace Verif.Host
open Verif.Compile

/-- What the C program does next with the values it has. -/
inductive Step where
  /-- FbleApply(value f, argument values made from the values it has), fble-value.h, value.c:1706-1709. -/
  | apply (f : Nat) (arg : Made) (args : List Made)
  /-- FbleStructValueField(value v, i), value.c:1292-1327. -/
  | field (v i : Nat)
  /-- The end: with value `v` as the result. -/
  | finish (v : Nat)

/-- A C program that uses an fble program: what it does next depends on what it has seen of the values so far.  The first one is the value of the
fble program, the others are the results of its applications and accesses. -/
abbrev Program := List View → Step

/-- The run of the host with the values it has.  It gives up when it gets NULL (`abort`), as FbleStdio does (pkgs/core/stdio.fble.c:372-382).  Applying what is
not there is an error of the host (`crash`).  At most so many steps are taken.  Parameters are `call`, FbleApply in the language of the values, and
`native`, FbleNewFuncValue for a function implemented in C.

Not modelled: frames (the values are not freed before the end) and FbleNativeValue's OnFree (files are not closed). -/
def runHost {F} (native : Nat → Nat → F) (call : Val F → List (Val F) → St F → Res F (Val F)) (host : Program) : Nat → List (Val F) → St F → Res F (Val F)
  | 0, _, _ => .oof
  | n + 1, vals, s =>
    match host (vals.map (view s.refs)) with
    | .finish v => match vals[v]? with
      | some v => .ok v s
      | none => .crash
    | .field v i => match vals[v]? with
      | some v => (structField v i s).bind fun w s => runHost native call host n (vals ++ [w]) s
      | none => .crash
    | .apply f a as => match vals[f]?, makes native vals (a :: as) with
      | some f, some args => (call f args s).bind fun v s => runHost native call host n (vals ++ [v]) s
      | _, _ => .crash

/-! ### What is seen of a run from outside -/

/-- How a run ends: with what can be seen of its result and the calls of functions implemented in C it made, the last one first; or
how else. -/
inductive Ended where
  | value (o : Obs) (calls : List Call)
  | abort
  | crash
  | wild
  | cutOff
  | stopped (calls : List Call)

def ended {F} (depth : Nat) : Res F (Val F) → Ended
  | .ok v s => .value (observe s.refs depth v) s.out.calls
  | .abort => .abort
  | .crash => .crash
  | .wild => .wild
  | .oof => .cutOff
  | .stop calls => .stopped calls

/-- The same outside until the call number `n`, at which the process is stopped. -/
def stopAt (answer : List Call → Reply) (n : Nat) : Outside :=
  ⟨[], fun calls => if calls.length = n then .stop else answer calls⟩

/-- The process makes `calls`, the last one first, with such an outside: stopped at the last of them, it has made these.  `run` is the process with any
outside. -/
def MakesCalls {F} (run : Outside → Res F (Val F)) (answer : List Call → Reply) (calls : List Call) : Prop :=
  calls ≠ [] ∧ run (stopAt answer calls.length) = .stop calls

/-! ### FbleStdio, pkgs/core/stdio.fble.c -/

/-- FbleNewEnumValue, value.c:1351-1356: a union value with the unit value as argument. -/
def enum (tag : Nat) : Made := .union tag (.struct [])

/-- A list as in /Core/List%: pkgs/core/stdio.fble.c:363-367 (cons is 0, nil is 1). -/
def list : List Made → Made
  | [] => enum 1
  | a :: as => .union 0 (.struct [a, list as])

/-- The list of characters that a C program knows, in the order of the tags of /Core/Char%: pkgs/core/char.fble.c:14-19. -/
def chars : List Nat := [10, 9] ++ List.range' 32 95

/-- FbleNewCharValue, pkgs/core/char.fble.c:22-32: `strchr`, and the character `?` (63) for a character that is not known. -/
def charTag (c : Nat) : Nat := (chars.idxOf? c).getD ((chars.idxOf? 63).getD 0)

/-- FbleNewStringValue, pkgs/core/string.fble.c:32-42. -/
def string (s : List Nat) : Made := list (s.map fun c => enum (charTag c))

/-- The functions of pkgs/core/stdio.fble.c, and those of pkgs/app/app.c (`event` and `effect`).  Streams have numbers: the first input stream is stdin, the first two output streams are stdout and stderr. -/
inductive Op where
  | read
  | write
  | getenv
  | event
  | effect
  | istream (i : Nat)
  | ostream (i : Nat)
deriving DecidableEq, Repr

/-- The function as a number. -/
def Op.code : Op → Nat
  | .read => 0
  | .write => 1
  | .getenv => 2
  | .event => 3
  | .effect => 4
  | .istream i => 5 + 2 * i
  | .ostream i => 6 + 2 * i

def Op.ofCode : Nat → Op
  | 0 => .read
  | 1 => .write
  | 2 => .getenv
  | 3 => .event
  | 4 => .effect
  | n + 5 => if n % 2 = 0 then .istream (n / 2) else .ostream (n / 2)

theorem Op.ofCode_code : (op : Op) → Op.ofCode op.code = op
  | .read => rfl
  | .write => rfl
  | .getenv => rfl
  | .event => rfl
  | .effect => rfl
  | .istream i => by
    rw [Op.code, Nat.add_comm, Op.ofCode, if_pos (by omega)]
    congr 1; omega
  | .ostream i => by
    rw [Op.code, show 6 + 2 * i = (2 * i + 1) + 5 by omega, Op.ofCode, if_neg (by omega)]
    congr 1; omega

/-- IStream, pkgs/core/stdio.fble.c:232-243: a function of one argument, the world. -/
def istream (i : Nat) : Made := .function (Op.istream i).code 0

/-- OStream, pkgs/core/stdio.fble.c:257-268: a function of two arguments, the byte and the world. -/
def ostream (i : Nat) : Made := .function (Op.ostream i).code 1

/-- FbleNewStdioIO, pkgs/core/stdio.fble.c:322-351, with Read, Write and GetEnv (277-319), functions of two arguments. -/
def stdioIO : Made :=
  .struct [istream 0, ostream 0, ostream 1, .function Op.read.code 1, .function Op.write.code 1, .function Op.getenv.code 1]

/-- FbleStdio after FbleEval, pkgs/core/stdio.fble.c:361-385: the program is applied to `stdioIO` and the arguments, the computation to the world, and
the second field of that is the result. -/
def stdioHost (args : List (List Nat)) : Program := fun vals =>
  match vals.length with
  | 1 => .apply 0 stdioIO [list (args.map string)]
  | 2 => .apply 1 (.struct []) []
  | 3 => .field 2 1
  | _ => .finish 3

/-- What FbleStdioMain returns, pkgs/core/stdio.fble.c:490-503, if it gets there: EX_FAILURE if there is no value, and -1 (FbleUnionValueTag,
value.c:1359-1365) if there is one which is not defined. -/
def exitStatus : Ended → Option Int
  | .value (.union tag _) _ => some (tag : Int)
  | .value .undefined _ => some (-1)
  | .abort => some 3
  | _ => none

end Verif.Host
