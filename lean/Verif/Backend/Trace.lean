import Verif.Backend.Generic
import Verif.Gen.Model
/-
What a run function does besides computing a result: the profile operations, the profile blocks of the
function values it makes, and the errors it reports.  This is what the interpreter does
(/repo/lib/interpret.c), stated for one activation of a function; calls in between add their own.
-/
namespace Verif.Backend
open Verif.Compile
open Verif.Text (Str)

/-- The error messages of interpret.c, also aarch64.c:1209-1225 and c.c:693-699. -/
inductive Msg where
  /-- "callee aborted" -/
  | calleeAborted
  /-- "undefined struct value access" -/
  | undefinedStructValue
  /-- "undefined union value access" -/
  | undefinedUnionValue
  /-- "undefined union value select" -/
  | undefinedUnionSelect
  /-- "union field access undefined: wrong tag" -/
  | wrongUnionTag
  /-- "called undefined function" -/
  | undefinedFunctionValue
  /-- "vacuous value" -/
  | vacuousValue
deriving DecidableEq

/-- FbleLoc, fble-loc.h. -/
structure SrcLoc where
  source : Str
  line : Nat
  col : Nat
deriving DecidableEq

/-- Blocks are relative to the block of the function. -/
inductive Ev where
  | prof (op : POp)
  | made (off : Nat)
  /-- A call has returned. -/
  | called
  | report (loc : SrcLoc) (msg : Msg)
deriving DecidableEq

/-- The message if an instruction aborts: interpret.c:128-131, 141-151, 162-165, 215-218, 228-231, 265-268. -/
def abortMsg {B} (i : Instr) (fr : GFrame B) (s : St (GFn B)) : Option Msg :=
  match i with
  | .structAccess .. => some .undefinedStructValue
  | .unionAccess obj _ _ =>
    match (fr.get obj).map (strict s) with
    | some .abort => some .undefinedUnionValue
    | _ => some .wrongUnionTag
  | .select .. => some .undefinedUnionSelect
  | .call .. => some .calleeAborted
  | .tailCall .. => some .undefinedFunctionValue
  | .refDef .. => some .vacuousValue
  | _ => none

/-- What an instruction adds whether it aborts or not.  Only a call both adds something and can abort. -/
def evOf : Instr → List Ev
  | .func _ off _ _ => [.made off]
  | .call _ _ _ => [.called]
  | _ => []

/-- What an instruction adds, given what it results in: interpret.c:98-306. -/
def instrEvents {B α} (i : Instr) (loc : SrcLoc) (fr : GFrame B) (s : St (GFn B)) : GRes B α → List Ev
  | .abort => evOf i ++ ((abortMsg i fr s).map (.report loc)).toList
  | .ok _ _ => evOf i
  | _ => []

/-- The profile operations before an instruction: interpret.c:76-96. -/
def profEvents (profiling : Bool) (ops : List POp) : List Ev := if profiling then ops.map .prof else []

/-- What the interpreter does from instruction `pc` on: interpret.c:72-307.  `ops` and `locs` are the profile operations and
the location of each instruction. -/
def gtrace {B} (profiling : Bool) (ops : Nat → List POp) (locs : Nat → SrcLoc) (mk : Code → Nat → B) (call : CallFn B) (code : List Instr)
    (pc : Nat) (fr : GFrame B) (s : St (GFn B)) : List Ev :=
  if _h : pc < code.length then
    profEvents profiling (ops pc) ++ instrEvents code[pc] (locs pc) fr s (gstep mk call code[pc] pc fr s) ++
      match gstep mk call code[pc] pc fr s with
      | .ok (.go pc' fr') s' => if pc < pc' then gtrace profiling ops locs mk call code pc' fr' s' else []
      | _ => []
  else []
termination_by code.length - pc
decreasing_by omega

end Verif.Backend
