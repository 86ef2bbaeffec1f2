import Verif.Host.Model
/-
The functions implemented in C of pkgs/core: what they read of their arguments, what they do and what they return.
-/
namespace Verif.Host
open Verif.Compile

/-! ### Integers, pkgs/core/int.fble.c -/

/-- The value of an `int64_t` computation; nothing if it overflows (2^63 = 9223372036854775808), which is undefined in C. -/
def i64 (x : Int) : Option Int := if -9223372036854775808 ≤ x ∧ x < 9223372036854775808 then some x else none

/-- MakeIntP, pkgs/core/int.fble.c:26-35: the binary digits of a positive number, the lowest one first. -/
def makeIntP (x : Nat) : Made := if x ≤ 1 then enum 0 else .union (1 + x % 2) (makeIntP (x / 2))
termination_by x
decreasing_by omega

/-- FbleNewIntValue, pkgs/core/int.fble.c:59-73.  Nothing if `-x` overflows. -/
def makeInt (x : Int) : Option Made :=
  if x < 0 then (i64 (-x)).map fun y => .union 0 (makeIntP y.toNat)
  else if x = 0 then some (enum 1)
  else some (.union 2 (makeIntP x.toNat))

/-- The value at a field of a struct, or the argument of a union. -/
def sub (v : View) (i : Nat) : View := fun path => v (i :: path)

/-- ReadIntP, pkgs/core/int.fble.c:48-56, with a bound on the depth of recursion.  Nothing if it overflows, or if a tag is wrong. -/
def readIntP : Nat → View → Option Int
  | 0, _ => none
  | n + 1, v =>
    match v [] with
    | .union 0 => some 1
    | .union 1 => (readIntP n (sub v 0)).bind fun x => i64 (2 * x)
    | .union 2 => (readIntP n (sub v 0)).bind fun x => (i64 (2 * x)).bind fun y => i64 (y + 1)
    | _ => none

/-- FbleIntValueAccess, pkgs/core/int.fble.c:76-84.  At depth 64 a number overflows (`readIntP_depth`). -/
def readInt (v : View) : Option Int :=
  match v [] with
  | .union 0 => (readIntP 64 (sub v 0)).bind fun x => i64 (-x)
  | .union 1 => some 0
  | .union 2 => readIntP 64 (sub v 0)
  | _ => none

/-! ### Strings, pkgs/core/char.fble.c and pkgs/core/string.fble.c -/

/-- FbleCharValueAccess, pkgs/core/char.fble.c:35-38.  After the characters there is a NUL. Nothing for what is not in the array. -/
def readChar (v : View) : Option Nat :=
  match v [] with
  | .union tag => (chars ++ [0])[tag]?
  | _ => none

/-- The loop of FbleStringValueAccess, pkgs/core/string.fble.c:19-26, with a bound.  It ends at an undefined value, whose tag is -1. -/
def readChars : Nat → View → Option (List Nat)
  | 0, _ => none
  | n + 1, v =>
    match v [] with
    | .union 0 => (readChar (sub (sub v 0) 0)).bind fun c => (readChars n (sub (sub v 0) 1)).map (c :: ·)
    | .union _ => some []
    | .nothing => some []
    | _ => none

open Classical in
/-- FbleStringValueAccess, pkgs/core/string.fble.c:15-29: the result as a C string, which ends at the first NUL.  Nothing if there is no end. -/
noncomputable def readString (v : View) : Option (List Nat) :=
  if h : ∃ n s, readChars n v = some s then some (h.choose_spec.choose.takeWhile (· ≠ 0)) else none

/-! ### Values of other types

A function that reads a value which it takes for one of another type makes assertions fail or accesses memory that is not there.  What follows
says when this is so, for FbleIntValueAccess and FbleStringValueAccess. -/

/-- Reading it as an `IntP@`, to some depth, meets only values that are not defined or with a tag of `IntP@`. -/
def intPLike : Nat → View → Bool
  | 0, _ => true
  | n + 1, v =>
    match v [] with
    | .union 0 => true
    | .union 1 => intPLike n (sub v 0)
    | .union 2 => intPLike n (sub v 0)
    | .nothing => true
    | _ => false

/-- Reading it as an `Int@`. -/
def intLike (n : Nat) (v : View) : Bool :=
  match v [] with
  | .union 0 => intPLike n (sub v 0)
  | .union 1 => true
  | .union 2 => intPLike n (sub v 0)
  | .nothing => true
  | _ => false

/-- Reading it as a `Char@`, which has 98 tags. -/
def charLike (v : View) : Bool :=
  match v [] with
  | .union tag => tag < 98
  | .nothing => true
  | _ => false

/-- Reading it as a `String@`. -/
def stringLike : Nat → View → Bool
  | 0, _ => true
  | n + 1, v =>
    match v [] with
    | .union 0 => (match sub v 0 [] with
      | .struct k => 2 ≤ k && charLike (sub (sub v 0) 0) && stringLike n (sub (sub v 0) 1)
      | .nothing => true
      | _ => false)
    | .union _ => true
    | .nothing => true
    | _ => false

/-- What comes of reading a value: what it means; or an assertion fails, or the behaviour is not defined, because some part of it is not defined yet
(FbleUnionValueTag is -1), or because it is too large or has no end (`fails`); or because it is not of the type (`wrong`). -/
inductive Reading (α : Type) where
  | ok (a : α)
  | fails
  | wrong

def Reading.bind {α β} (r : Reading α) (k : α → Reading β) : Reading β :=
  match r with
  | .ok a => k a
  | .fails => .fails
  | .wrong => .wrong

open Classical in
noncomputable def readingInt (v : View) : Reading Int :=
  match readInt v with
  | some x => .ok x
  | none => if ∀ n, intLike n v then .fails else .wrong

open Classical in
noncomputable def readingString (v : View) : Reading (List Nat) :=
  match readString v with
  | some s => .ok s
  | none => if ∀ n, stringLike n v then .fails else .wrong

/-! ### Input and output, pkgs/core/stdio.fble.c -/

/-- The world at the start of the process. -/
structure World where
  /-- What is in the standard input. -/
  stdin : List Nat
  /-- What there is in the files that can be read, by name. -/
  files : List Nat → Option (List Nat)
  /-- Which files can be opened for writing. -/
  writable : List Nat → Bool
  /-- getenv. -/
  env : List Nat → Option (List Nat)

/-- The open streams: what there is left to read in each of the input streams, and what has been written to each of the
output streams.  Files are not closed, and what is written is not read. -/
structure Streams where
  inputs : List (List Nat)
  outputs : List (List Nat)

def World.start (w : World) : Streams := ⟨[w.stdin], [[], []]⟩

/-- A result of type `R@<Maybe@<..>>`: the world and something or nothing (FbleNewUnionValue 0, FbleNewEnumValue 1). -/
def result (world : Nat) (x : Option Made) : Made :=
  .struct [.argument world, match x with | some x => .union 0 x | none => enum 1]

/-- What one call does and returns; the process ends if reading an argument fails, and it crashes if an argument has another type.  There is no stream that
has not been opened; the process ends at a call for one. -/
noncomputable def World.call (w : World) (st : Streams) (c : Call) : Streams × Reply :=
  match Op.ofCode c.op, c.args with
  -- IStreamImpl, pkgs/core/stdio.fble.c:80-100
  | .istream i, [_] =>
    match st.inputs[i]? with
    | some (b :: rest) => ({ st with inputs := st.inputs.set i rest }, .value (result 0 (makeInt b)))
    | some [] => (st, .value (result 0 none))
    | none => (st, .stop)
  -- OStreamImpl, pkgs/core/stdio.fble.c:108-125: `fputc` writes an `unsigned char`
  | .ostream i, [b, _] =>
    match readingInt b, st.outputs[i]? with
    | .ok x, some o => ({ st with outputs := st.outputs.set i (o ++ [(x % 256).toNat]) }, .value (.struct [.argument 1, .struct []]))
    | .wrong, _ => (st, .crash)
    | _, _ => (st, .stop)
  -- ReadImpl, pkgs/core/stdio.fble.c:136-156
  | .read, [name, _] =>
    match readingString name with
    | .ok name => match w.files name with
      | some content => ({ st with inputs := st.inputs ++ [content] }, .value (result 1 (some (istream st.inputs.length))))
      | none => (st, .value (result 1 none))
    | .fails => (st, .stop)
    | .wrong => (st, .crash)
  -- WriteImpl, pkgs/core/stdio.fble.c:167-187
  | .write, [name, _] =>
    match readingString name with
    | .ok name =>
      if w.writable name then ({ st with outputs := st.outputs ++ [[]] }, .value (result 1 (some (ostream st.outputs.length))))
      else (st, .value (result 1 none))
    | .fails => (st, .stop)
    | .wrong => (st, .crash)
  -- GetEnvImpl, pkgs/core/stdio.fble.c:198-218
  | .getenv, [name, _] =>
    match readingString name with
    | .ok name => (st, .value (result 1 ((w.env name).map string)))
    | .fails => (st, .stop)
    | .wrong => (st, .crash)
  | _, _ => (st, .crash)

/-- The streams after some calls, the last one first. -/
noncomputable def World.after (w : World) : List Call → Streams
  | [] => w.start
  | c :: cs => (w.call (w.after cs) c).1

/-- What the functions of pkgs/core/stdio.fble.c return. -/
noncomputable def World.answer (w : World) : List Call → Reply
  | [] => .stop
  | c :: cs => (w.call (w.after cs) c).2

noncomputable def World.outside (w : World) : Outside := ⟨[], w.answer⟩

end Verif.Host
