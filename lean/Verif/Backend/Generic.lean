import Verif.Compile.Machine
/-
The runtime as compiled programs use it.  A function value has an executable: how many arguments it
takes, and a `run` function.  For an interpreted program `run` is always `Interpret`
(Verif.Compile.Machine); for a program compiled to C or to AArch64 assembly it is a function of the
generated code.  Here the kind `B` of run functions, and what they do, are parameters.

SIMPLIFIED: as in Verif.Compile.Machine, heap frames, garbage collection and profiling effects are left out.
-/
namespace Verif.Backend
open Verif.Compile

/-- FbleFunction, fble-function.h, with its executable; `native` is a function implemented in C by hand. -/
inductive GFn (B : Type) where
  | func (numArgs : Nat) (run : B) (statics : List (Val (GFn B)))
  | pap (numArgs : Nat) (f : GFn B) (args : List (Val (GFn B)))
  | native (op more : Nat)

abbrev GVal (B : Type) := Val (GFn B)
abbrev GRes (B : Type) := Res (GFn B)

/-- `executable.num_args`. -/
def GFn.arity {B} : GFn B → Nat
  | .func n _ _ => n
  | .pap n _ _ => n
  | .native _ more => more + 1

/-- How a run function ends: with a result, or with a tail call (TailCallSentinel). -/
inductive GOut (B : Type) where
  | ret (v : GVal B)
  | tail (f : GVal B) (args : List (GVal B))

/-- FbleCall as a parameter. -/
abbrev CallFn (B : Type) := GVal B → List (GVal B) → St (GFn B) → GRes B (GVal B)

/-- What the run functions do: `run body call statics args state`. -/
abbrev Runs (B : Type) := B → CallFn B → List (GVal B) → List (GVal B) → St (GFn B) → GRes B (GOut B)

section
variable {B : Type} (run : Runs B)

mutual
/-- FbleCall (value.c:1644-1686) on a function value. -/
def gcall (f : GVal B) (args : List (GVal B)) (s : St (GFn B)) : GRes B (GVal B) :=
  (strict s f).bind fun g _ =>
    match g with
    | .fn g => gcallFn g args s
    | _ => .crash
termination_by (s.fuel, 1, 0)

/-- The call proper (value.c:1654-1685, and 1541-1580 for a tail call). -/
def gcallFn (g : GFn B) (args : List (GVal B)) (s : St (GFn B)) : GRes B (GVal B) :=
  if args.length < g.arity then .ok (.fn (.pap (g.arity - args.length) g args)) s
  else
    let used := args.take g.arity
    let unused := args.drop g.arity
    match g with
    | .func _ body statics =>
      if s.fuel = 0 then .oof
      else
        (run body (fun f as s' => if s'.fuel < s.fuel then gcall f as s' else .oof) statics used { s with fuel := s.fuel - 1 }).bind fun o s' =>
            if s'.fuel < s.fuel then
              match o with
              | .ret v => if unused = [] then .ok v s' else gcall v unused s'
              | .tail f as => gtailCall f (as ++ unused) s'
            else .oof
    | .pap _ h pargs =>
      -- PartialApplyImpl, value.c:1478-1490
      (gcallFn h (pargs ++ used) s).bind fun v s' =>
        if unused = [] then .ok v s' else if s'.fuel < s.fuel then gcall v unused s' else .oof
    | .native op _ =>
      if s.fuel = 0 then .oof
      else (callOut .native op used { s with fuel := s.fuel - 1 }).bind fun v s' =>
        if unused = [] then .ok v s' else if s'.fuel < s.fuel then gcall v unused s' else .oof
termination_by (s.fuel, 0, sizeOf g)

/-- One iteration of TailCall, value.c:1536-1583. -/
def gtailCall (f : GVal B) (args : List (GVal B)) (s : St (GFn B)) : GRes B (GVal B) :=
  match strict s f with
  | .ok (.fn g) _ => gcallFn g args s
  | .oof => .oof
  | .stop h => .stop h
  | .abort => .wild
  | .wild => .wild
  | _ => .crash
termination_by (s.fuel, 1, 0)
end
end

/-! ### Interpreted functions among the others

The main function of a compiled program is interpreted (link.c:153-221), the other functions are not. -/

/-- The variables of a running function, interpret.c:60-70. -/
structure GFrame (B : Type) where
  statics : List (GVal B)
  args : List (GVal B)
  locals : List (Option (GVal B))

/-- The macro GET of interpret.c. -/
def GFrame.get {B} (fr : GFrame B) : Var → Option (GVal B)
  | .static i => fr.statics[i]?
  | .arg i => fr.args[i]?
  | .loc i => (fr.locals[i]?).join

/-- Reading a list of variables, as at interpret.c:101-105. -/
def GFrame.gets {B} (fr : GFrame B) (vs : List Var) : Option (List (GVal B)) := vs.mapM fr.get

/-- `locals[dest] = v`. -/
def GFrame.put {B} (fr : GFrame B) (dest : Nat) (v : GVal B) : Option (GFrame B) :=
  if dest < fr.locals.length then some { fr with locals := fr.locals.set dest (some v) } else none

/-- Where the loop of the interpreter goes next. -/
inductive GNext (B : Type) where
  | go (pc : Nat) (fr : GFrame B)
  | done (o : GOut B)

/-- Storing a value and going on with the next instruction. -/
def gset {B} (pc : Nat) (fr : GFrame B) (dest : Nat) (v : GVal B) (s : St (GFn B)) : GRes B (GNext B) :=
  orWild (fr.put dest v) fun fr => .ok (.go (pc + 1) fr) s

/-- One instruction, interpret.c:98-306.  `mk` gives the run function of a function value made by the
instruction, from the code of the function and the offset of its profile block: `Interpret` in an
interpreted function (interpret.c:312-328). -/
def gstep {B} (mk : Code → Nat → B) (call : CallFn B) (instr : Instr) (pc : Nat) (fr : GFrame B) (s : St (GFn B)) : GRes B (GNext B) :=
  match instr with
  | .struct args dest => orWild (fr.gets args) fun vs => gset pc fr dest (.struct vs) s
  | .union tag arg dest => orWild (fr.get arg) fun v => gset pc fr dest (.union tag v) s
  | .structAccess obj tag dest => orWild (fr.get obj) fun v =>
      (structField v tag s).bind fun w s => gset pc fr dest w s
  | .unionAccess obj tag dest => orWild (fr.get obj) fun v =>
      (unionField v tag s).bind fun w s => gset pc fr dest w s
  | .select c nt targets default => orWild (fr.get c) fun v => (tagBelow nt v s).bind fun tag s =>
      match Select.interpSelect targets default (some tag) with
      | .goto t => .ok (.go t fr) s
      | .abort => .abort
      | .crash => .wild
  | .goto t => .ok (.go t fr) s
  | .func code off scope dest => orWild (fr.gets scope) fun vs => gset pc fr dest (.fn (.func code.numArgs (mk code off) vs)) s
  | .call f args dest => orWild (fr.get f) fun f => orWild (fr.gets args) fun vs =>
      (call f vs s).bind fun v s => gset pc fr dest v s
  | .tailCall f args => orWild (fr.get f) fun f => (strict s f).bind fun g s =>
      match g with
      | .fn _ => orWild (fr.gets args) fun vs => .ok (.done (.tail f vs)) s
      | _ => .crash
  | .copy src dest => orWild (fr.get src) fun v => gset pc fr dest v s
  | .refValue dest => gset pc fr dest (newRef s).1 (newRef s).2
  | .refDef ref value => orWild (fr.get (.loc ref)) fun r => orWild (fr.get value) fun v =>
      (assignRef r v s).bind fun _ s => .ok (.go (pc + 1) fr) s
  | .ret v => orWild (fr.get v) fun v => .ok (.done (.ret v)) s
  | .type dest => gset pc fr dest .type s
  | .list args dest => orWild (fr.gets args) fun vs => gset pc fr dest (newList vs) s
  | .literal ls dest => gset pc fr dest (newLiteral ls) s
  | .nop => .ok (.go (pc + 1) fr) s

/-- The loop of `Interpret`, interpret.c:72-307, from instruction `pc` on. -/
def gexec {B} (mk : Code → Nat → B) (call : CallFn B) (code : List Instr) (pc : Nat) (fr : GFrame B) (s : St (GFn B)) : GRes B (GOut B) :=
  if _h : pc < code.length then
    (gstep mk call code[pc] pc fr s).bind fun nx s =>
      match nx with
      | .done o => .ok o s
      | .go pc' fr => if pc < pc' then gexec mk call code pc' fr s else .wild
  else .wild
termination_by code.length - pc
decreasing_by omega

/-- `Interpret`, interpret.c:53-307. -/
def interpret {B} (mk : Code → Nat → B) (code : Code) (call : CallFn B) (statics args : List (GVal B)) (s : St (GFn B)) : GRes B (GOut B) :=
  gexec mk call code.instrs 0 ⟨statics, args, List.replicate code.numLocals none⟩ s

/-- The main function of a compiled program and its call: link.c:153-221. `funcs` are the run functions
of the modules. -/
def runGenerated {B} (run : Runs B) (interp : Code → B) (main : Code) (funcs : List (Nat × B)) (fuel : Nat) (out : Outside := .silent) : GRes B (GVal B) :=
  gcall run (.fn (.func main.numArgs (interp main) (funcs.map fun f => .fn (.func f.1 f.2 [])))) [] ⟨fuel, [], out⟩

end Verif.Backend
