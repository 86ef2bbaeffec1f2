import Verif.Compile.Source
import Verif.Select.Model
/-
The bytecode (/repo/lib/code.h), the interpreter (/repo/lib/interpret.c) and the function call
protocol (/repo/lib/value.c:1465-1709).

SIMPLIFIED: heap frames and garbage collection are left out (Verif.Gc), and so are profiling
effects (the operations are recorded in the code, Verif.Compile.Prof says what they do).  Functions
implemented in C are those that `callOut` describes.  PartialApply stores the function value it was given, which may be a
reference that has been assigned; here it stores the function the reference stands for.
-/
namespace Verif.Compile
open Verif.Select (Branch)

/-- FbleProfileOp, code.h. -/
inductive POp where
  | enter (block : Nat)
  | replace (block : Nat)
  | exit
  | sample (count : Nat)
deriving DecidableEq, Repr

mutual
/-- FbleInstr and the instructions, code.h:95-560.  The profile operations are kept in `Code`. -/
inductive Instr where
  | struct (args : List Var) (dest : Nat)
  | union (tag : Nat) (arg : Var) (dest : Nat)
  | structAccess (obj : Var) (tag dest : Nat)
  | unionAccess (obj : Var) (tag dest : Nat)
  | select (condition : Var) (numTags : Nat) (targets : List Branch) (default : Nat)
  | goto (target : Nat)
  | func (code : Code) (block : Nat) (scope : List Var) (dest : Nat)
  | call (func : Var) (args : List Var) (dest : Nat)
  | tailCall (func : Var) (args : List Var)
  | copy (source : Var) (dest : Nat)
  | refValue (dest : Nat)
  | refDef (ref : Nat) (value : Var)
  | ret (result : Var)
  | type (dest : Nat)
  | list (args : List Var) (dest : Nat)
  | literal (letters : List Nat) (dest : Nat)
  | nop
/-- FbleCode, code.h.  `profile` lists for each instruction the operations executed before it. -/
inductive Code where
  | mk (numArgs numStatics numLocals : Nat) (instrs : List Instr) (profile : List (List POp))
end

def Code.numArgs : Code → Nat | .mk a _ _ _ _ => a
def Code.numStatics : Code → Nat | .mk _ n _ _ _ => n
def Code.numLocals : Code → Nat | .mk _ _ l _ _ => l
def Code.instrs : Code → List Instr | .mk _ _ _ i _ => i
def Code.profile : Code → List (List POp) | .mk _ _ _ _ p => p

/-- FbleFunction, fble-function.h, of interpreted functions (interpret.c:309-328), of partial
applications (value.c:1505-1517) and of functions implemented in C, which take `more + 1` arguments.  Of a partial application `numArgs` is stored. -/
inductive TFn where
  | func (code : Code) (statics : List (Val TFn))
  | pap (numArgs : Nat) (f : TFn) (args : List (Val TFn))
  | native (op more : Nat)

abbrev TVal := Val TFn
abbrev TRes := Res TFn

/-- `executable.num_args`. -/
def TFn.arity : TFn → Nat
  | .func code _ => code.numArgs
  | .pap n _ _ => n
  | .native _ more => more + 1

/-- The variables of a running function: `vars`, interpret.c:60-70.  A local that has not been written
yet is `none`: reading it, or reading or writing out of range, makes the run `wild`. -/
structure Frame where
  statics : List TVal
  args : List TVal
  locals : List (Option TVal)

/-- The macro GET of interpret.c. -/
def Frame.get (fr : Frame) : Var → Option TVal
  | .static i => fr.statics[i]?
  | .arg i => fr.args[i]?
  | .loc i => (fr.locals[i]?).join

/-- Reading a list of variables, as at interpret.c:101-105. -/
def Frame.gets (fr : Frame) (vs : List Var) : Option (List TVal) := vs.mapM fr.get

/-- `locals[dest] = v`. -/
def Frame.put (fr : Frame) (dest : Nat) (v : TVal) : Option Frame :=
  if dest < fr.locals.length then some { fr with locals := fr.locals.set dest (some v) } else none

/-- How a function body ends: with a result, or with a tail call (TailCallSentinel). -/
inductive Outcome where
  | ret (v : TVal)
  | tail (f : TVal) (args : List TVal)

/-- What a missing value makes of a run. -/
def orWild {F α β} (o : Option α) (k : α → Res F β) : Res F β :=
  match o with
  | some a => k a
  | none => .wild

/-- Where the loop of the interpreter goes next. -/
inductive Next where
  | go (pc : Nat) (fr : Frame)
  | done (o : Outcome)

/-- Storing a value and going on with the next instruction. -/
def setNext (pc : Nat) (fr : Frame) (dest : Nat) (v : TVal) (s : St TFn) : TRes Next :=
  orWild (fr.put dest v) fun fr => .ok (.go (pc + 1) fr) s

/-- One instruction, interpret.c:98-306.  `call` is FbleCall. -/
def step (call : TVal → List TVal → St TFn → TRes TVal) (instr : Instr) (pc : Nat) (fr : Frame) (s : St TFn) :
    TRes Next :=
  match instr with
  | .struct args dest => orWild (fr.gets args) fun vs => setNext pc fr dest (.struct vs) s
  | .union tag arg dest => orWild (fr.get arg) fun v => setNext pc fr dest (.union tag v) s
  | .structAccess obj tag dest => orWild (fr.get obj) fun v =>
      (structField v tag s).bind fun w s => setNext pc fr dest w s
  | .unionAccess obj tag dest => orWild (fr.get obj) fun v =>
      (unionField v tag s).bind fun w s => setNext pc fr dest w s
  | .select c nt targets default => orWild (fr.get c) fun v => (tagBelow nt v s).bind fun tag s =>
      match Select.interpSelect targets default (some tag) with
      | .goto t => .ok (.go t fr) s
      | .abort => .abort
      | .crash => .wild
  | .goto t => .ok (.go t fr) s
  | .func code _ scope dest => orWild (fr.gets scope) fun vs => setNext pc fr dest (.fn (.func code vs)) s
  | .call f args dest => orWild (fr.get f) fun f => orWild (fr.gets args) fun vs =>
      (call f vs s).bind fun v s => setNext pc fr dest v s
  | .tailCall f args => orWild (fr.get f) fun f => (strict s f).bind fun g s =>
      match g with
      | .fn _ => orWild (fr.gets args) fun vs => .ok (.done (.tail f vs)) s
      | _ => .crash
  | .copy src dest => orWild (fr.get src) fun v => setNext pc fr dest v s
  | .refValue dest => setNext pc fr dest (newRef s).1 (newRef s).2
  | .refDef ref value => orWild (fr.get (.loc ref)) fun r => orWild (fr.get value) fun v =>
      (assignRef r v s).bind fun _ s => .ok (.go (pc + 1) fr) s
  | .ret v => orWild (fr.get v) fun v => .ok (.done (.ret v)) s
  | .type dest => setNext pc fr dest .type s
  | .list args dest => orWild (fr.gets args) fun vs => setNext pc fr dest (newList vs) s
  | .literal ls dest => setNext pc fr dest (newLiteral ls) s
  | .nop => .ok (.go (pc + 1) fr) s

/-- The loop of `Interpret`, interpret.c:72-307, from instruction `pc` on.  A jump that does not go
forward is `wild` here; compiled code has none (C14). -/
def exec (call : TVal → List TVal → St TFn → TRes TVal) (code : List Instr) (pc : Nat) (fr : Frame) (s : St TFn) :
    TRes Outcome :=
  if _h : pc < code.length then
    (step call code[pc] pc fr s).bind fun nx s =>
      match nx with
      | .done o => .ok o s
      | .go pc' fr => if pc < pc' then exec call code pc' fr s else .wild
  else .wild
termination_by code.length - pc
decreasing_by omega

/-- The variables at the start of a function: the locals are not initialised. -/
def Code.frame (c : Code) (statics args : List TVal) : Frame := ⟨statics, args, List.replicate c.numLocals none⟩

mutual
/-- FbleCall (value.c:1644-1686) on a function value. -/
def fcall (f : TVal) (args : List TVal) (s : St TFn) : TRes TVal :=
  (strict s f).bind fun g _ =>
    match g with
    | .fn g => callFn g args s
    | _ => .crash
termination_by (s.fuel, 1, 0)

/-- The call proper (value.c:1654-1685, and 1541-1580 for a tail call): too few arguments make a
partial application; otherwise the body is run with as many arguments as it takes, and what is left
is passed on to a tail call or to the result. -/
def callFn (g : TFn) (args : List TVal) (s : St TFn) : TRes TVal :=
  if args.length < g.arity then .ok (.fn (.pap (g.arity - args.length) g args)) s
  else
    let used := args.take g.arity
    let unused := args.drop g.arity
    match g with
    | .func code statics =>
      if s.fuel = 0 then .oof
      else
        (exec (fun f as s' => if s'.fuel < s.fuel then fcall f as s' else .oof) code.instrs 0 (code.frame statics used)
          { s with fuel := s.fuel - 1 }).bind fun o s' =>
            if s'.fuel < s.fuel then
              match o with
              | .ret v => if unused = [] then .ok v s' else fcall v unused s'
              | .tail f as => tailCall f (as ++ unused) s'
            else .oof
    | .pap _ h pargs =>
      -- PartialApplyImpl, value.c:1478-1490
      (callFn h (pargs ++ used) s).bind fun v s' =>
        if unused = [] then .ok v s' else if s'.fuel < s.fuel then fcall v unused s' else .oof
    | .native op _ =>
      if s.fuel = 0 then .oof
      else (callOut .native op used { s with fuel := s.fuel - 1 }).bind fun v s' =>
        if unused = [] then .ok v s' else if s'.fuel < s.fuel then fcall v unused s' else .oof
termination_by (s.fuel, 0, sizeOf g)

/-- One iteration of TailCall, value.c:1536-1583.  The function is dereferenced without a check. -/
def tailCall (f : TVal) (args : List TVal) (s : St TFn) : TRes TVal :=
  match strict s f with
  | .ok (.fn g) _ => callFn g args s
  | .oof => .oof
  | .stop h => .stop h
  | .abort => .wild
  | .wild => .wild
  | _ => .crash
termination_by (s.fuel, 1, 0)
end

end Verif.Compile
