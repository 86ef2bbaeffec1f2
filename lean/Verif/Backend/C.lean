import Verif.Backend.Generic
import Verif.Compile.Model
import Verif.Gen.Model
/-
The C backend, /repo/lib/c.c: what it emits for a module, and what that means in C.

The C code is abstract syntax: one constructor per kind of statement that EmitCode prints.  Locations
and error messages are left out.  Where the generator would read or write outside an array, fail an
assertion or overrun a buffer, the result is `none`.
-/
namespace Verif.Backend
open Verif.Compile
open Verif.Text (Str ch)

/-! ### Abstract syntax -/

/-- The arrays `fv<pc>` (c.c:443) and `ca<pc>` (c.c:461, 486). -/
inductive CArr where
  | fv (pc : Nat)
  | ca (pc : Nat)
deriving DecidableEq

/-- The right hand sides of assignments to locals.  A variable `s[i]`, `a[i]`, `l[i]` is a `Var`. -/
inductive CExpr where
  /-- `s[i]`, `a[i]` or `l[i]`: c.c:503. -/
  | var (v : Var)
  /-- `FbleNewStructValue_(heap, argc, ...)`: c.c:354. -/
  | newStruct (argc : Nat) (args : List Var)
  /-- `FbleNewUnionValue(heap, tag, arg)`: c.c:367. -/
  | newUnion (tag : Nat) (arg : Var)
  /-- `FbleStructValueField(obj, i)`: c.c:376. -/
  | structField (obj : Var) (i : Nat)
  /-- `FbleUnionValueField(obj, i)`: c.c:386. -/
  | unionField (obj : Var) (i : Nat)
  /-- `FbleNewFuncValue(heap, &exe_<exe>, profile_block_id + offset, <statics>)`: c.c:451. -/
  | newFunc (exe offset : Nat) (statics : CArr)
  /-- `FbleCall(heap, profile, f, argc, <args>)`: c.c:468. -/
  | call (f : Var) (argc : Nat) (args : CArr)
  /-- `FbleNewRefValue(heap)`: c.c:512. -/
  | newRef
  /-- `FbleGenericTypeValue`: c.c:538. -/
  | genericType
  /-- `FbleNewListValue_(heap, argc, ...)`: c.c:546. -/
  | newList (argc : Nat) (args : List Var)
  /-- `FbleNewLiteralValue(heap, argc, lit_<lit>)`: c.c:564. -/
  | newLiteral (argc lit : Nat)

inductive CStmt where
  /-- `pc_<pc>:`, c.c:317. -/
  | label (pc : Nat)
  /-- `if (profile) { ... }`, c.c:322-345. -/
  | profile (ops : List POp)
  /-- `l[dest] = e;` -/
  | set (dest : Nat) (e : CExpr)
  /-- `if (l[dest] == NULL) { ReportAbort(...); return NULL; }`, c.c:379, 390, 472. -/
  | ifNull (dest : Nat)
  /-- `if (l[dest] == FbleWrongUnionTag) { l[dest] = NULL; { ReportAbort(...); return NULL; } }`, c.c:393-396. -/
  | ifWrongTag (dest : Nat)
  /-- `switch (FbleUnionValueTag(c)) { case -1: { ...; return NULL; } case <tag>: goto pc_<target>; ... default: goto pc_<default>; }`,
  c.c:403-421. -/
  | switch (c : Var) (cases : List (Nat × Nat)) (default : Nat)
  /-- `goto pc_<pc>;`, c.c:430. -/
  | goto (pc : Nat)
  /-- `static FbleExecutable exe_<id> = { .num_args, .num_statics, .run };`, c.c:441-445. -/
  | exe (id numArgs numStatics : Nat) (run : Str)
  /-- `FbleValue* <name>[size] = { ... };`, c.c:447-453, 461-467, 486-492. -/
  | arr (name : CArr) (size : Nat) (elems : List Var)
  /-- `static size_t lit_<id>[] = { ... };`, c.c:559-563. -/
  | lit (id : Nat) (letters : List Nat)
  /-- `f0 = FbleFuncValueFunction(v);`, c.c:480. -/
  | setF0 (v : Var)
  /-- `if (f0 == NULL) { ReportAbort(...); return NULL; }`, c.c:483. -/
  | ifF0Null
  /-- `return FbleTailCall(heap, f0, f, argc, <args>);`, c.c:494. -/
  | retTail (f : Var) (argc : Nat) (args : CArr)
  /-- `if (!FbleAssignRefValue(heap, l[ref], v)) { ReportAbort(...); return NULL; }`, c.c:519-523. -/
  | ifNotAssign (ref : Nat) (v : Var)
  /-- `return v;`, c.c:529. -/
  | ret (v : Var)

/-- A run function, c.c:285-300: its name, the size of the array `l`, and its statements. -/
structure CFun where
  name : Str
  numLocals : Nat
  body : List CStmt

/-- The emitted module as far as it is used to run it: the run functions, and the executable of the
module (StaticGeneratedModule, c.c:232-241). -/
structure CModule where
  funs : List CFun
  numArgs : Nat
  numStatics : Nat
  run : Str

/-! ### The generator -/

/-- `jump_target[target] = true`, with the assertion before it: c.c:411-412, 416-417, 428-429. -/
def mark (flags : List Bool) (pc target : Nat) : Option (List Bool) :=
  if pc < target ∧ target < flags.length then some (flags.set target true) else none

/-- The loop c.c:408-414. -/
def markAll (flags : List Bool) (pc : Nat) : List Select.Branch → Option (List Bool)
  | [] => some flags
  | b :: bs => (mark flags pc b.target).bind fun flags => markAll flags pc bs

/-- The first `n` of the variables: the loops over `func_instr->code->executable.num_statics`,
c.c:448-452. -/
def firstVars (n : Nat) (vs : List Var) : Option (List Var) := if n ≤ vs.length then some (vs.take n) else none

/-- The name of the run function for a block: c.c:284-290, 435-437, 444.  `names` is
`module->profile_blocks`. -/
def runName (sg : Bool) (names : List Str) (block : Nat) : Option Str :=
  names[block]?.bind fun n => Gen.functionLabel sg (ch '_') n block

/-- The statements for an instruction, the next `exe_id` and `lit_id`, and the jump targets:
c.c:348-572.  `block` is the block of the code the instruction is in.  The block of the code of a
function value is stored in the code; here it is computed from the offset (compile.c:1205 computes the
offset from it). -/
def emitInstr (sg : Bool) (names : List Str) (block pc exe lit : Nat) (flags : List Bool) : Instr → Option (List CStmt × Nat × Nat × List Bool)
  | .struct args dest => some ([.set dest (.newStruct args.length args)], exe, lit, flags)
  | .union tag arg dest => some ([.set dest (.newUnion tag arg)], exe, lit, flags)
  | .structAccess obj tag dest => some ([.set dest (.structField obj tag), .ifNull dest], exe, lit, flags)
  | .unionAccess obj tag dest => some ([.set dest (.unionField obj tag), .ifNull dest, .ifWrongTag dest], exe, lit, flags)
  | .select c nt targets default => (markAll flags pc targets).bind fun flags => (mark flags pc default).map fun flags =>
      ([.switch c (targets.map fun b => (b.tag, b.target)) default], exe, lit, flags)
  | .goto t => (mark flags pc t).map fun flags => ([.goto t], exe, lit, flags)
  | .func code off scope dest => (runName sg names (block + off)).bind fun run => (firstVars code.numStatics scope).map fun vs =>
      ([.exe exe code.numArgs code.numStatics run, .arr (.fv pc) code.numStatics vs, .set dest (.newFunc exe off (.fv pc))], exe + 1, lit, flags)
  | .call f args dest => some ([.arr (.ca pc) args.length args, .set dest (.call f args.length (.ca pc)), .ifNull dest], exe, lit, flags)
  | .tailCall f args => some ([.setF0 f, .ifF0Null, .arr (.ca pc) args.length args, .retTail f args.length (.ca pc)], exe, lit, flags)
  | .copy src dest => some ([.set dest (.var src)], exe, lit, flags)
  | .refValue dest => some ([.set dest .newRef], exe, lit, flags)
  | .refDef ref v => some ([.ifNotAssign ref v], exe, lit, flags)
  | .ret v => some ([.ret v], exe, lit, flags)
  | .type dest => some ([.set dest .genericType], exe, lit, flags)
  | .list args dest => some ([.set dest (.newList args.length args)], exe, lit, flags)
  | .literal ls dest => some ([.lit lit ls, .set dest (.newLiteral ls.length lit)], exe, lit + 1, flags)
  | .nop => some ([], exe, lit, flags)

/-- The label and the profile operations before an instruction: c.c:313-346. -/
def emitHead (flags : List Bool) (pc : Nat) (ops : List POp) : List CStmt :=
  (if flags[pc]?.getD false then [.label pc] else []) ++ (if ops = [] then [] else [.profile ops])

/-- The loop over the instructions from `pc` on: c.c:309-574. -/
def emitLoop (sg : Bool) (names : List Str) (block pc exe lit : Nat) (flags : List Bool) : List Instr → List (List POp) → Option (List CStmt)
  | [], _ => some []
  | i :: is, ops => (emitInstr sg names block pc exe lit flags i).bind fun r =>
      (emitLoop sg names block (pc + 1) r.2.1 r.2.2.1 r.2.2.2 is ops.tail).map fun rest =>
        emitHead flags pc (ops.headD []) ++ r.1 ++ rest

/-- c.c:282-577 `EmitCode`. -/
def emitCode (sg : Bool) (names : List Str) (block : Nat) (code : Code) : Option CFun :=
  (runName sg names block).bind fun name =>
    (emitLoop sg names block 0 0 0 (List.replicate code.instrs.length false) code.instrs code.profile).map fun body =>
      ⟨name, code.numLocals, body⟩

mutual
/-- c.c:50-81 `CollectBlocks`, with the block of each code. -/
def collectBlocks (block : Nat) : Code → List (Nat × Code)
  | .mk na ns nl is p => (block, .mk na ns nl is p) :: collectInstrs block is
/-- The loop c.c:53-80. -/
def collectInstrs (block : Nat) : List Instr → List (Nat × Code)
  | [] => []
  | i :: is => collectInstr block i ++ collectInstrs block is
/-- c.c:54-79. -/
def collectInstr (block : Nat) : Instr → List (Nat × Code)
  | .func code off _ _ => collectBlocks (block + off) code
  | _ => []
end

/-- c.c:681-729 `FbleGenerateC`. -/
def generateC (sg : Bool) (names : List Str) (code : Code) : Option CModule :=
  ((collectBlocks 0 code).mapM fun b => emitCode sg names b.1 b.2).bind fun funs =>
    (runName sg names 0).map fun run => ⟨funs, code.numArgs, code.numStatics, run⟩

/-! ### What the C code means -/

/-- A run function of a compiled program: `Interpret`, or a function of module `m` (they are static,
so a name stands for the function of the module). -/
inductive CBody where
  | interp (code : Code)
  | gen (m : Nat) (name : Str)

/-- What a local holds: a value, NULL, or FbleWrongUnionTag. -/
inductive CPtr where
  | val (v : GVal CBody)
  | null
  | wrongTag

/-- The variables of a run function, c.c:293-304.  A local that has not been written is `none`. -/
structure CFrame where
  statics : List (GVal CBody)
  args : List (GVal CBody)
  locals : List (Option CPtr)
  arrs : CArr → Option (List (GVal CBody))
  f0 : Option (Option (GFn CBody))

/-- A variable used as a value.  Using NULL or FbleWrongUnionTag as a value is an error. -/
def CFrame.get (fr : CFrame) : Var → Option (GVal CBody)
  | .static i => fr.statics[i]?
  | .arg i => fr.args[i]?
  | .loc i => match fr.locals[i]? with
    | some (some (.val v)) => some v
    | _ => none

def CFrame.gets (fr : CFrame) (vs : List Var) : Option (List (GVal CBody)) := vs.mapM fr.get

def CFrame.put (fr : CFrame) (dest : Nat) (p : CPtr) : Option CFrame :=
  if dest < fr.locals.length then some { fr with locals := fr.locals.set dest (some p) } else none

/-- The first `n` elements of an array. -/
def CFrame.arr (fr : CFrame) (name : CArr) (n : Nat) : Option (List (GVal CBody)) :=
  (fr.arrs name).bind fun vs => if n ≤ vs.length then some (vs.take n) else none

/-- A value or NULL, as the functions of the runtime return it. -/
def nullable (s : St (GFn CBody)) : GRes CBody (GVal CBody) → GRes CBody CPtr
  | .ok v s => .ok (.val v) s
  | .abort => .ok .null s
  | .crash => .crash
  | .wild => .wild
  | .oof => .oof
  | .stop h => .stop h

/-- FbleUnionValueField, value.c:1419-1454: NULL if undefined, FbleWrongUnionTag for the wrong tag. -/
def unionFieldPtr (v : GVal CBody) (i : Nat) (s : St (GFn CBody)) : GRes CBody CPtr :=
  match strict s v with
  | .ok (.union tag a) s => .ok (if tag = i then .val a else .wrongTag) s
  | .ok _ _ => .crash
  | .abort => .ok .null s
  | .crash => .crash
  | .wild => .wild
  | .oof => .oof
  | .stop h => .stop h

/-- The executable declared in the function: static, so it does not matter whether the declaration has
been reached. -/
def findExe (id : Nat) : List CStmt → Option (Nat × Nat × Str)
  | [] => none
  | .exe id' na ns run :: rest => if id' = id then some (na, ns, run) else findExe id rest
  | _ :: rest => findExe id rest

def findLit (id : Nat) : List CStmt → Option (List Nat)
  | [] => none
  | .lit id' ls :: rest => if id' = id then some ls else findLit id rest
  | _ :: rest => findLit id rest

/-- The value of an expression.  `whole` is the function it is in, `m` the module. -/
def ceval (m : Nat) (whole : List CStmt) (call : CallFn CBody) (e : CExpr) (fr : CFrame) (s : St (GFn CBody)) : GRes CBody CPtr :=
  match e with
  | .var v => orWild (fr.get v) fun v => .ok (.val v) s
  | .newStruct argc args => orWild (fr.gets args) fun vs => if argc = vs.length then .ok (.val (.struct vs)) s else .wild
  | .newUnion tag arg => orWild (fr.get arg) fun v => .ok (.val (.union tag v)) s
  | .structField obj i => orWild (fr.get obj) fun v => nullable s (structField v i s)
  | .unionField obj i => orWild (fr.get obj) fun v => unionFieldPtr v i s
  | .newFunc exe _ statics => orWild (findExe exe whole) fun e => orWild (fr.arr statics e.2.1) fun vs =>
      .ok (.val (.fn (.func e.1 (.gen m e.2.2) vs))) s
  | .call f argc args => orWild (fr.get f) fun f => orWild (fr.arr args argc) fun vs => nullable s (call f vs s)
  | .newRef => .ok (.val (newRef s).1) (newRef s).2
  | .genericType => .ok (.val .type) s
  | .newList argc args => orWild (fr.gets args) fun vs => if argc = vs.length then .ok (.val (newList vs)) s else .wild
  | .newLiteral argc lit => orWild (findLit lit whole) fun ls => if argc ≤ ls.length then .ok (.val (newLiteral (ls.take argc))) s else .wild

/-- Where `goto` goes: the rest of the function after the label.  Jumps only go forward in the emitted
code, so the label is looked for in the rest of the function. -/
def cseek (pc : Nat) : List CStmt → Option (List CStmt)
  | [] => none
  | .label pc' :: rest => if pc' = pc then some rest else cseek pc rest
  | _ :: rest => cseek pc rest

theorem cseek_length {pc : Nat} : ∀ {c r : List CStmt}, cseek pc c = some r → r.length < c.length
  | [], _, h => by simp [cseek] at h
  | st :: rest, r, h => by
    have ih := fun h' => cseek_length (pc := pc) (c := rest) (r := r) h'
    cases st
    case label pc' =>
      simp only [cseek] at h
      split at h
      · cases h; simp
      · have := ih h; simp; omega
    all_goals (have := ih h; simp; omega)

/-- Running the statements of a function.  Running off the end is an error: a value is expected. -/
def cexec (m : Nat) (whole : List CStmt) (call : CallFn CBody) (code : List CStmt) (fr : CFrame) (s : St (GFn CBody)) : GRes CBody (GOut CBody) :=
  match code with
  | [] => .wild
  | .label _ :: rest => cexec m whole call rest fr s
  | .profile _ :: rest => cexec m whole call rest fr s
  | .set dest e :: rest => (ceval m whole call e fr s).bind fun p s => orWild (fr.put dest p) fun fr => cexec m whole call rest fr s
  | .ifNull dest :: rest =>
    match fr.locals[dest]? with
    | some (some .null) => .abort
    | some (some _) => cexec m whole call rest fr s
    | _ => .wild
  | .ifWrongTag dest :: rest =>
    match fr.locals[dest]? with
    | some (some .wrongTag) => .abort
    | some (some _) => cexec m whole call rest fr s
    | _ => .wild
  | .switch c cases default :: rest => orWild (fr.get c) fun v =>
    match unionTag v s with
    | .ok tag s =>
      match hs : cseek (((cases.find? fun b => b.1 == tag).map (·.2)).getD default) rest with
      | some r =>
        have := cseek_length hs
        cexec m whole call r fr s
      | none => .wild
    | .abort => .abort      -- case -1
    | .crash => .crash
    | .wild => .wild
    | .oof => .oof
    | .stop h => .stop h
  | .goto t :: rest =>
    match hs : cseek t rest with
    | some r =>
      have := cseek_length hs
      cexec m whole call r fr s
    | none => .wild
  | .exe .. :: rest => cexec m whole call rest fr s
  | .arr name size elems :: rest => orWild (fr.gets elems) fun vs =>
    if vs.length = size then cexec m whole call rest { fr with arrs := upd fr.arrs name (some vs) } s else .wild
  | .lit .. :: rest => cexec m whole call rest fr s
  | .setF0 v :: rest => orWild (fr.get v) fun v =>
    match strict s v with
    | .ok (.fn g) s => cexec m whole call rest { fr with f0 := some (some g) } s
    | .ok _ _ => .crash
    | .abort => cexec m whole call rest { fr with f0 := some none } s
    | .crash => .crash
    | .wild => .wild
    | .oof => .oof
    | .stop h => .stop h
  | .ifF0Null :: rest =>
    match fr.f0 with
    | some none => .abort
    | some (some _) => cexec m whole call rest fr s
    | none => .wild
  | .retTail f argc args :: _ => orWild (fr.get f) fun f => orWild (fr.arr args argc) fun vs =>
    match fr.f0 with
    | some (some _) => .ok (.tail f vs) s
    | _ => .wild
  | .ifNotAssign ref v :: rest => orWild (fr.get (.loc ref)) fun r => orWild (fr.get v) fun v =>
    (assignRef r v s).bind fun _ s => cexec m whole call rest fr s
  | .ret v :: _ => orWild (fr.get v) fun v => .ok (.ret v) s
termination_by code.length
decreasing_by all_goals (simp_wf; try omega)

/-- What the run functions of a program of modules compiled to C do. -/
def runC (mods : List CModule) : Runs CBody
  | .interp code, call, statics, args, s => interpret (fun c _ => .interp c) code call statics args s
  | .gen m name, call, statics, args, s =>
    match (mods[m]?).bind fun md => md.funs.find? fun f => f.name == name with
    | none => .wild
    | some f => cexec m f.body call f.body ⟨statics, args, List.replicate f.numLocals none, fun _ => none, none⟩ s

end Verif.Backend
