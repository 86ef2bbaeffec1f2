import Verif.Backend.C
import Verif.Backend.Trace
/-
The AArch64 backend, /repo/lib/aarch64.c: what it emits for a module, and what that means to the
processor.

The assembly is abstract syntax: one constructor per kind of line that EmitCode prints.  Registers,
the stack pointer, stack memory, the flags and the calling convention are modelled; a 64 bit word is
abstract: a number, a pointer to an Fble value, a stack address, and so on.  Directives for alignment
and debugging are left out.  Where the generator would read outside an array or overrun a buffer, the
result is `none`.
-/
namespace Verif.Backend
open Verif.Compile
open Verif.Text (Str ch)

/-! ### Abstract syntax -/

/-- Labels of a function.  `.Lr.<func>.<pc>` is `at`, `.Lr.<func>.<pc>.<k>` is `sub`, and `.Lo.<func>.<pc>.p`,
`.u`, `.bt`, `.abort`, `.v` are the labels of the outline code. -/
inductive Lbl where
  | at (pc : Nat)
  | exit
  | pp (pc : Nat)
  | sub (pc k : Nat)
  | exe (pc : Nat)
  | letters (pc : Nat)
  | p (pc : Nat)
  | u (pc : Nat)
  | bt (pc : Nat)
  | abort (pc : Nat)
  | v (pc : Nat)
deriving DecidableEq

/-- What `Adr` (aarch64.c:480-495) is used with: labels of the function, of the module's data
(aarch64.c:1209-1232), and symbols of the runtime and libc. -/
inductive Sym where
  | lbl (l : Lbl)
  | genericType
  | stderr
  | errorFormat
  | loc (source : Str)
  | msg (m : Msg)
deriving DecidableEq

/-- The functions called with `bl`. -/
inductive Callee where
  | newStruct
  | newUnion
  | structField
  | unionField
  | unionTag
  | newFunc
  | call
  | tailCall
  | funcFunction
  | newRef
  | assignRef
  | newList
  | newLiteral
  | fprintf
  | profEnter
  | profReplace
  | profExit
  | profSample
deriving DecidableEq

/-- A line.  Registers are numbers: x0 to x30. -/
inductive Line where
  /-- `<label>:` -/
  | label (l : Lbl)
  /-- `ldr rd, [rb, #off]` -/
  | ldr (rd rb off : Nat)
  /-- `str rs, [rb, #off]` -/
  | str (rs rb off : Nat)
  /-- `str XZR, [rb, #off]` -/
  | strz (rb off : Nat)
  /-- `str rs, [SP, #off]` -/
  | strSp (rs off : Nat)
  /-- `stp r1, r2, [SP, #off]` -/
  | stp (r1 r2 off : Nat)
  /-- `stp r1, r2, [SP, #-n]!` -/
  | stpPre (r1 r2 n : Nat)
  /-- `ldp r1, r2, [SP, #off]` -/
  | ldp (r1 r2 off : Nat)
  /-- `ldp r1, r2, [SP], #n` -/
  | ldpPost (r1 r2 n : Nat)
  /-- `mov rd, rs` -/
  | mov (rd rs : Nat)
  /-- `mov rd, XZR` -/
  | movz (rd : Nat)
  /-- `mov rd, n` -/
  | movi (rd n : Nat)
  /-- `mov rd, SP` -/
  | movSp (rd : Nat)
  /-- `add rd, SP, #n` -/
  | addSp (rd n : Nat)
  /-- `sub SP, SP, n` -/
  | subSP (n : Nat)
  /-- `add SP, SP, #n` -/
  | addSP (n : Nat)
  /-- `add rd, rs, #n` -/
  | addi (rd rs n : Nat)
  /-- `adrp rd, sym; add rd, rd, :lo12:sym` -/
  | adr (rd : Nat) (sym : Sym)
  /-- `cmp rn, i` -/
  | cmp (rn : Nat) (i : Int)
  /-- `b l` -/
  | b (l : Lbl)
  /-- `b.eq l` -/
  | beq (l : Lbl)
  /-- `b.cc l`: unsigned less than -/
  | bcc (l : Lbl)
  /-- `cbz r, l` -/
  | cbz (r : Nat) (l : Lbl)
  /-- `cbnz r, l` -/
  | cbnz (r : Nat) (l : Lbl)
  /-- `bl f` -/
  | bl (f : Callee)
  /-- `ret` -/
  | ret
  /-- The FbleExecutable in the data section, aarch64.c:712-722. -/
  | exe (pc numArgs numStatics : Nat) (run : Str)
  /-- The letters in the data section, aarch64.c:875-880. -/
  | letters (pc : Nat) (ls : List Nat)

/-- The registers with names, aarch64.c:1202-1207. -/
abbrev rHeap : Nat := 19
abbrev rLocals : Nat := 20
abbrev rArgs : Nat := 21
abbrev rStatics : Nat := 22
abbrev rBlock : Nat := 23
abbrev rProfile : Nat := 24
abbrev rFP : Nat := 29
abbrev rLR : Nat := 30

/-- A run function. -/
structure AFun where
  name : Str
  body : List Line

/-- The emitted module as far as it is used to run it: the run functions, and the executable of the
module (StaticGeneratedModule, aarch64.c:359-370). -/
structure AModule where
  funs : List AFun
  numArgs : Nat
  numStatics : Nat
  run : Str

/-! ### The generator -/

/-- aarch64.c:465-468 `StackBytesForCount`. -/
def stackBytes (n : Nat) : Nat := 16 * ((n + 1) / 2)

/-- aarch64.c:399-403 `GetFrameVar`. -/
def getVar (rd : Nat) : Var → Line
  | .static i => .ldr rd rStatics (8 * i)
  | .arg i => .ldr rd rArgs (8 * i)
  | .loc i => .ldr rd rLocals (8 * i)

/-- aarch64.c:415-418 `SetFrameVar`. -/
def setVar (rs dest : Nat) : Line := .str rs rLocals (8 * dest)

/-- The loops that store arguments on the stack from the `k`th on: aarch64.c:628-631, 727-730, 752-755, 785-788,
858-861. -/
def storeVars (r k : Nat) : List Var → List Line
  | [] => []
  | v :: vs => getVar r v :: .strSp r (8 * k) :: storeVars r (k + 1) vs

/-- aarch64.c:431-450 `DoAbort`. -/
def doAbort (msg : Msg) (loc : SrcLoc) : List Line :=
  [.adr 0 .stderr, .ldr 0 0 0, .adr 1 .errorFormat, .adr 2 (.loc loc.source), .movi 3 loc.line, .movi 4 loc.col, .adr 5 (.msg msg), .bl .fprintf,
    .movz 0, .b .exit]

/-- The name of the run function for a block: aarch64.c:717-722, 1033-1036.  `names` is
`module->profile_blocks`. -/
def runNameA (sg : Bool) (names : List Str) (block : Nat) : Option Str :=
  names[block]?.bind fun n => Gen.functionLabel sg (ch '.') n block

/-- The lines of EmitSearch (aarch64.c:528-591, Select.emitSearch) in the function. -/
def searchLine (pc : Nat) : Select.Asm → Line
  | .b t => .b (.at t)
  | .cmp k => .cmp 0 k
  | .beq t => .beq (.at t)
  | .bcc t => .bcc (.at t)
  | .bccLocal l => .bcc (.sub pc l)
  | .label l => .label (.sub pc l)

/-- The lines for an instruction: aarch64.c:620-896 of `EmitInstr`.  `block` is the block of the code the
instruction is in; the block of the code of a function value is computed from the offset, as in
Backend.C. -/
def emitInline (sg : Bool) (names : List Str) (block pc : Nat) : Instr → Option (List Line)
  | .struct args dest => some (.subSP (stackBytes args.length) :: storeVars 0 0 args ++
      [.mov 0 rHeap, .movi 1 args.length, .movSp 2, .bl .newStruct, setVar 0 dest, .addSP (stackBytes args.length)])
  | .union tag arg dest => some [.mov 0 rHeap, .movi 1 tag, getVar 2 arg, .bl .newUnion, setVar 0 dest]
  | .structAccess obj tag dest => some [getVar 0 obj, .movi 1 tag, .bl .structField, setVar 0 dest, .cbz 0 (.u pc)]
  | .unionAccess obj tag dest => some [getVar 0 obj, .movi 1 tag, .bl .unionField, setVar 0 dest, .cbz 0 (.u pc), .cmp 0 2, .beq (.bt pc)]
  | .select c nt targets default => some ([getVar 0 c, .bl .unionTag, .cmp 0 (-1), .beq (.u pc)] ++
      (Select.emitSelect nt targets default).map (searchLine pc))
  | .goto t => some [.b (.at t)]
  | .func code off scope dest => (runNameA sg names (block + off)).bind fun run => (firstVars code.numStatics scope).map fun vs =>
      .exe pc code.numArgs code.numStatics run :: .subSP (stackBytes code.numStatics) :: storeVars 0 0 vs ++
      [.mov 0 rHeap, .adr 1 (.lbl (.exe pc)), .addi 2 rBlock off, .movSp 3, .bl .newFunc, setVar 0 dest, .addSP (stackBytes code.numStatics)]
  | .call f args dest => some (.subSP (stackBytes args.length) :: storeVars 0 0 args ++
      [.mov 0 rHeap, .mov 1 rProfile, getVar 2 f, .movi 3 args.length, .movSp 4, .bl .call, setVar 0 dest, .addSP (stackBytes args.length), .cbz 0 (.abort pc)])
  | .tailCall f args => some ([getVar 0 f, .bl .funcFunction, .cbz 0 (.u pc), .mov 1 0, .mov 0 rHeap, getVar 2 f, .subSP (stackBytes args.length)] ++
      storeVars 9 0 args ++ [.movi 3 args.length, .movSp 4, .bl .tailCall, .addSP (stackBytes args.length), .b .exit])
  | .copy src dest => some [getVar 1 src, setVar 1 dest]
  | .refValue dest => some [.mov 0 rHeap, .bl .newRef, setVar 0 dest]
  | .refDef ref v => some [.mov 0 rHeap, getVar 1 (.loc ref), getVar 2 v, .bl .assignRef, .cbz 0 (.v pc)]
  | .ret v => some [getVar 0 v, .b .exit]
  | .type dest => some [.adr 0 .genericType, .ldr 0 0 0, setVar 0 dest]
  | .list args dest => some (.subSP (stackBytes args.length) :: storeVars 9 0 args ++
      [.mov 0 rHeap, .movi 1 args.length, .movSp 2, .bl .newList, setVar 0 dest, .addSP (stackBytes args.length)])
  | .literal ls dest => some [.letters pc ls, .mov 0 rHeap, .movi 1 ls.length, .adr 2 (.lbl (.letters pc)), .bl .newLiteral, setVar 0 dest]
  | .nop => some []

/-- The check before an instruction with profile operations: aarch64.c:615-618. -/
def emitCheck (pc : Nat) (ops : List POp) : List Line := if ops = [] then [] else [.cbnz rProfile (.p pc), .label (.pp pc)]

/-- A profile operation: aarch64.c:914-945. -/
def emitOp : POp → List Line
  | .enter n => [.mov 0 rProfile, .mov 1 rBlock, .addi 1 1 n, .bl .profEnter]
  | .replace n => [.mov 0 rProfile, .mov 1 rBlock, .addi 1 1 n, .bl .profReplace]
  | .exit => [.mov 0 rProfile, .bl .profExit]
  | .sample n => [.mov 0 rProfile, .movi 1 n, .bl .profSample]

/-- aarch64.c:951-1012: the error cases of an instruction. -/
def emitErrors (pc : Nat) (loc : SrcLoc) : Instr → List Line
  | .structAccess _ _ _ => .label (.u pc) :: doAbort .undefinedStructValue loc
  | .unionAccess _ _ dest => .label (.u pc) :: doAbort .undefinedUnionValue loc ++ .label (.bt pc) :: .strz rLocals (8 * dest) :: doAbort .wrongUnionTag loc
  | .select _ _ _ _ => .label (.u pc) :: doAbort .undefinedUnionSelect loc
  | .call _ _ _ => .label (.abort pc) :: doAbort .calleeAborted loc
  | .tailCall _ _ => .label (.u pc) :: doAbort .undefinedFunctionValue loc ++ .label (.abort pc) :: doAbort .calleeAborted loc
  | .refDef _ _ => .label (.v pc) :: doAbort .vacuousValue loc
  | _ => []

/-- aarch64.c:909-1014 `EmitOutlineCode`. -/
def emitOutline (pc : Nat) (ops : List POp) (loc : SrcLoc) (i : Instr) : List Line :=
  (if ops = [] then [] else .label (.p pc) :: ops.flatMap emitOp ++ [.b (.pp pc)]) ++ emitErrors pc loc i

/-- The loop aarch64.c:1063-1066 from `pc` on. -/
def emitBody (sg : Bool) (names : List Str) (block pc : Nat) (ops : Nat → List POp) : List Instr → Option (List Line)
  | [] => some []
  | i :: is => (emitInline sg names block pc i).bind fun ls => (emitBody sg names block (pc + 1) ops is).map fun rest =>
      .label (.at pc) :: emitCheck pc (ops pc) ++ ls ++ rest

/-- The loop aarch64.c:1078-1081 from `pc` on. -/
def emitOutlines (pc : Nat) (ops : Nat → List POp) (locs : Nat → SrcLoc) : List Instr → List Line
  | [] => []
  | i :: is => emitOutline pc (ops pc) (locs pc) i ++ emitOutlines (pc + 1) ops locs is

/-- aarch64.c:1043-1061: the frame and the registers. -/
def prologue (numLocals : Nat) : List Line :=
  [.subSP (stackBytes numLocals), .stpPre rFP rLR 64, .movSp rFP, .stp rHeap rLocals 16, .stp rArgs rStatics 32, .stp rBlock rProfile 48,
    .ldr rStatics 2 32, .ldr rBlock 2 24, .mov rHeap 0, .mov rArgs 3, .mov rProfile 1, .addSp rLocals 64]

/-- aarch64.c:1069-1075. -/
def epilogue (numLocals : Nat) : List Line :=
  [.label .exit, .ldp rHeap rLocals 16, .ldp rArgs rStatics 32, .ldp rBlock rProfile 48, .ldpPost rFP rLR 64, .addSP (stackBytes numLocals), .ret]

/-- aarch64.c:1026-1085 `EmitCode`.  `locs` are the locations of the instructions, which the bytecode
of Verif.Compile.Machine does not have. -/
def emitCodeA (sg : Bool) (names : List Str) (block : Nat) (locs : Nat → SrcLoc) (code : Code) : Option AFun :=
  (runNameA sg names block).bind fun name =>
    (emitBody sg names block 0 (fun pc => code.profile[pc]?.getD []) code.instrs).map fun body =>
      ⟨name, prologue code.numLocals ++ body ++ epilogue code.numLocals ++
        emitOutlines 0 (fun pc => code.profile[pc]?.getD []) locs code.instrs⟩

/-- aarch64.c:1187-1397 `FbleGenerateAArch64`.  CollectBlocksAndLocs (aarch64.c:158-217) collects the blocks as
CollectBlocks of c.c does.  `locs` are the locations of the instructions of each block. -/
def generateA (sg : Bool) (names : List Str) (locs : Nat → Nat → SrcLoc) (code : Code) : Option AModule :=
  ((collectBlocks 0 code).mapM fun b => emitCodeA sg names b.1 (locs b.1) b.2).bind fun funs =>
    (runNameA sg names 0).map fun run => ⟨funs, code.numArgs, code.numStatics, run⟩

/-! ### What the assembly means -/

/-- A 64 bit word. -/
inductive Word where
  /-- A number. -/
  | int (i : Int)
  /-- A pointer to a value (never 0 or 2: FbleValue pointers are aligned to eight bytes or odd). -/
  | val (v : GVal CBody)
  /-- A stack address, relative to the stack pointer at the entry of the function. -/
  | stk (a : Int)
  /-- Bytes into the array of arguments. -/
  | argv (off : Nat)
  /-- Bytes into the array of statics. -/
  | statv (off : Nat)
  /-- The FbleFunction being run. -/
  | self
  /-- The FbleFunction of a value. -/
  | fn (g : GFn CBody)
  /-- The profile block of the function being run, plus a number. -/
  | block (n : Nat)
  /-- The FbleValueHeap. -/
  | heap
  /-- The FbleProfileThread. -/
  | prof
  /-- `stderr`. -/
  | file
  /-- The address of a symbol. -/
  | sym (s : Sym)
  /-- What a callee saved register holds at the entry of the function. -/
  | caller (r : Nat)
  /-- FbleTailCall returned: the sentinel, with the call in the heap's buffer. -/
  | tail (f : GVal CBody) (args : List (GVal CBody))

/-- The state of the processor as seen by a function.  `none` is unknown. -/
structure Mach where
  reg : Nat → Option Word
  sp : Int
  mem : Int → Option Word
  flags : Option (Word × Int)
  log : List Ev

/-- What the function is run with: its code, its statics and arguments, whether the program is being
profiled, and how calls behave.  `m` is the module it is in. -/
structure Env where
  m : Nat
  whole : List Line
  statics : List (GVal CBody)
  args : List (GVal CBody)
  profiling : Bool
  call : CallFn CBody

/-- The argument `profile` of a run function. -/
def Env.profile (env : Env) : Word := if env.profiling then .prof else .int 0

def Line.defines : Line → Option Lbl
  | .label l => some l
  | .exe pc .. => some (.exe pc)
  | .letters pc _ => some (.letters pc)
  | _ => none

/-- The code or data from a label on. -/
def seek (l : Lbl) : List Line → Option (List Line)
  | [] => none
  | x :: rest => if x.defines = some l then some (x :: rest) else seek l rest

/-- A word of the function's stack: not below the stack pointer, and not in the frames of its callers. -/
def Mach.onStack (m : Mach) (a : Int) : Prop := m.sp ≤ a ∧ a + 8 ≤ 0 ∧ a % 8 = 0

instance (m : Mach) (a : Int) : Decidable (m.onStack a) := inferInstanceAs (Decidable (_ ∧ _ ∧ _))

/-- The word at an address.  The layout of FbleFunction: fble-function.h, executable (three words), profile_block_id,
statics. -/
def Mach.load (env : Env) (m : Mach) (w : Word) (off : Nat) : Option Word :=
  match w with
  | .stk a => if m.onStack (a + off) then m.mem (a + off) else none
  | .argv o => if (o + off) % 8 = 0 then (env.args[(o + off) / 8]?).map .val else none
  | .statv o => if (o + off) % 8 = 0 then (env.statics[(o + off) / 8]?).map .val else none
  | .self => if off = 24 then some (.block 0) else if off = 32 then some (.statv 0) else none
  | .sym .genericType => if off = 0 then some (.val .type) else none
  | .sym .stderr => if off = 0 then some .file else none
  | _ => none

def Mach.setReg (m : Mach) (r : Nat) (w : Word) : Mach := { m with reg := fun x => if x = r then some w else m.reg x }

def Mach.setMem (m : Mach) (a : Int) (w : Word) : Mach := { m with mem := fun x => if x = a then some w else m.mem x }

/-- What a call leaves: x0 to x18 and x30 are not preserved, nor are the flags and the memory below the
stack pointer.  `w` is the result in x0. -/
def Mach.after (m : Mach) (w : Option Word) : Mach :=
  { m with reg := fun r => if r = 0 then w else if r ≤ 18 ∨ r = 30 then none else m.reg r
           mem := fun a => if a < m.sp then none else m.mem a
           flags := none }

def Mach.note (m : Mach) (e : Ev) : Mach := { m with log := m.log ++ [e] }

def Word.val? : Word → Option (GVal CBody)
  | .val v => some v
  | _ => none

def Word.nat? : Word → Option Nat
  | .int i => if 0 ≤ i then some i.toNat else none
  | _ => none

/-- An array of values. -/
def Mach.array (env : Env) (m : Mach) (w : Word) (n : Nat) : Option (List (GVal CBody)) :=
  (List.range n).mapM fun i => (m.load env w (8 * i)).bind Word.val?

/-- Whether a word is a number, if that is known: a pointer to a value is neither NULL nor
FbleWrongUnionTag (which is 2, fble-value.h:204). -/
def Word.is (w : Word) (i : Int) : Option Bool :=
  match w with
  | .int j => some (j = i)
  | .val _ => if i = 0 ∨ i = 2 then some false else none
  | .fn _ => if i = 0 then some false else none
  | .prof => if i = 0 then some false else none
  | _ => none

/-- Unsigned comparison with a number. -/
def Word.below (w : Word) (i : Int) : Option Bool :=
  match w with
  | .int j => if 0 ≤ i ∧ 0 ≤ j then some (j < i) else none
  | _ => none

/-- How a line ends: on to the next line, a jump, or the end of the function. -/
inductive ANext where
  | next (m : Mach) (s : St (GFn CBody))
  | jump (l : Lbl)
  | stop (r : GRes CBody (GOut CBody))

/-- Returning from a call with result `w`. -/
def done (m : Mach) (w : Word) (s : St (GFn CBody)) : ANext := .next (m.after (some w)) s

/-- Returning from a call with a value or NULL. -/
def doneNullable (m : Mach) (s : St (GFn CBody)) : GRes CBody (GVal CBody) → ANext
  | .ok v s => done m (.val v) s
  | .abort => done m (.int 0) s
  | .crash => .stop .crash
  | .wild => .stop .wild
  | .oof => .stop .oof
  | .stop h => .stop (.stop h)

/-- Something unknown or not allowed. -/
abbrev bad : ANext := .stop .wild

/-- Whether a word is the FbleProfileThread the function was called with. -/
def Env.isProfile (env : Env) (w : Word) : Bool :=
  match env.profiling, w with
  | true, .prof => true
  | false, .int i => i = 0
  | _, _ => false

/-- The functions of the runtime: their arguments are in x0, x1 and so on. -/
def acall (env : Env) (m : Mach) (s : St (GFn CBody)) (f : Callee) : ANext :=
  match f with
  -- FbleNewStructValue(heap, argc, args)
  | .newStruct =>
    match m.reg 0, m.reg 1, m.reg 2 with
    | some .heap, some n, some a =>
      match n.nat?.bind (m.array env a) with
      | some vs => done m (.val (.struct vs)) s
      | none => bad
    | _, _, _ => bad
  -- FbleNewUnionValue(heap, tag, arg)
  | .newUnion =>
    match m.reg 0, m.reg 1, m.reg 2 with
    | some .heap, some t, some (.val v) =>
      match t.nat? with
      | some t => done m (.val (.union t v)) s
      | none => bad
    | _, _, _ => bad
  -- FbleStructValueField(object, field)
  | .structField =>
    match m.reg 0, m.reg 1 with
    | some (.val v), some i =>
      match i.nat? with
      | some i => doneNullable m s (structField v i s)
      | none => bad
    | _, _ => bad
  -- FbleUnionValueField(object, field)
  | .unionField =>
    match m.reg 0, m.reg 1 with
    | some (.val v), some i =>
      match i.nat? with
      | some i =>
        match unionFieldPtr v i s with
        | .ok (.val v) s => done m (.val v) s
        | .ok .null s => done m (.int 0) s
        | .ok .wrongTag s => done m (.int 2) s
        | .abort => bad
        | .crash => .stop .crash
        | .wild => bad
        | .oof => .stop .oof
        | .stop h => .stop (.stop h)
      | none => bad
    | _, _ => bad
  -- FbleUnionValueTag(object)
  | .unionTag =>
    match m.reg 0 with
    | some (.val v) =>
      match unionTag v s with
      | .ok t s => done m (.int t) s
      | .abort => done m (.int (-1)) s
      | .crash => .stop .crash
      | .wild => bad
      | .oof => .stop .oof
      | .stop h => .stop (.stop h)
    | _ => bad
  -- FbleNewFuncValue(heap, executable, profile_block_id, statics)
  | .newFunc =>
    match m.reg 0, m.reg 1, m.reg 2, m.reg 3 with
    | some .heap, some (.sym (.lbl l)), some (.block off), some a =>
      match seek l env.whole with
      | some (.exe _ na ns run :: _) =>
        match m.array env a ns with
        | some vs => done (m.note (.made off)) (.val (.fn (.func na (.gen env.m run) vs))) s
        | none => bad
      | _ => bad
    | _, _, _, _ => bad
  -- FbleCall(heap, profile, function, argc, args)
  | .call =>
    match m.reg 0, m.reg 1, m.reg 2, m.reg 3, m.reg 4 with
    | some .heap, some p, some (.val f), some n, some a =>
      match n.nat?.bind (m.array env a) with
      | some vs => if env.isProfile p then doneNullable (m.note .called) s (env.call f vs s) else bad
      | none => bad
    | _, _, _, _, _ => bad
  -- FbleTailCall(heap, function, func, argc, args)
  | .tailCall =>
    match m.reg 0, m.reg 1, m.reg 2, m.reg 3, m.reg 4 with
    | some .heap, some (.fn _), some (.val f), some n, some a =>
      match n.nat?.bind (m.array env a) with
      | some vs => done m (.tail f vs) s
      | none => bad
    | _, _, _, _, _ => bad
  -- FbleFuncValueFunction(value)
  | .funcFunction =>
    match m.reg 0 with
    | some (.val f) =>
      match strict s f with
      | .ok (.fn g) s => done m (.fn g) s
      | .ok _ _ => .stop .crash
      | .abort => done m (.int 0) s
      | .crash => .stop .crash
      | .wild => bad
      | .oof => .stop .oof
      | .stop h => .stop (.stop h)
    | _ => bad
  -- FbleNewRefValue(heap)
  | .newRef =>
    match m.reg 0 with
    | some .heap => done m (.val (newRef s).1) (newRef s).2
    | _ => bad
  -- FbleAssignRefValue(heap, ref, value)
  | .assignRef =>
    match m.reg 0, m.reg 1, m.reg 2 with
    | some .heap, some (.val r), some (.val v) =>
      match assignRef r v s with
      | .ok _ s => done m (.int 1) s
      | .abort => done m (.int 0) s
      | .crash => .stop .crash
      | .wild => bad
      | .oof => .stop .oof
      | .stop h => .stop (.stop h)
    | _, _, _ => bad
  -- FbleNewListValue(heap, argc, args)
  | .newList =>
    match m.reg 0, m.reg 1, m.reg 2 with
    | some .heap, some n, some a =>
      match n.nat?.bind (m.array env a) with
      | some vs => done m (.val (newList vs)) s
      | none => bad
    | _, _, _ => bad
  -- FbleNewLiteralValue(heap, argc, letters)
  | .newLiteral =>
    match m.reg 0, m.reg 1, m.reg 2 with
    | some .heap, some n, some (.sym (.lbl l)) =>
      match n.nat?, seek l env.whole with
      | some n, some (.letters _ ls :: _) => if n ≤ ls.length then done m (.val (newLiteral (ls.take n))) s else bad
      | _, _ => bad
    | _, _, _ => bad
  -- fprintf(stderr, "%s:%d:%d: error: %s", source, line, col, message)
  | .fprintf =>
    match m.reg 0, m.reg 1, m.reg 2, m.reg 3, m.reg 4, m.reg 5 with
    | some .file, some (.sym .errorFormat), some (.sym (.loc src)), some l, some c, some (.sym (.msg t)) =>
      match l.nat?, c.nat? with
      | some l, some c => .next ((m.note (.report ⟨src, l, c⟩ t)).after none) s
      | _, _ => bad
    | _, _, _, _, _, _ => bad
  -- FbleProfileEnterBlock(profile, block)
  | .profEnter =>
    match m.reg 0, m.reg 1 with
    | some .prof, some (.block n) => .next ((m.note (.prof (.enter n))).after none) s
    | _, _ => bad
  -- FbleProfileReplaceBlock(profile, block)
  | .profReplace =>
    match m.reg 0, m.reg 1 with
    | some .prof, some (.block n) => .next ((m.note (.prof (.replace n))).after none) s
    | _, _ => bad
  -- FbleProfileExitBlock(profile)
  | .profExit =>
    match m.reg 0 with
    | some .prof => .next ((m.note (.prof .exit)).after none) s
    | _ => bad
  -- FbleProfileRandomSample(profile, count)
  | .profSample =>
    match m.reg 0, m.reg 1 with
    | some .prof, some n =>
      match n.nat? with
      | some n => .next ((m.note (.prof (.sample n))).after none) s
      | none => bad
    | _, _ => bad

/-- What the function returned means to its caller: a value, the sentinel of a tail call, or NULL. -/
def Word.result (s : St (GFn CBody)) : Word → GRes CBody (GOut CBody)
  | .val v => .ok (.ret v) s
  | .tail f vs => .ok (.tail f vs) s
  | .int i => if i = 0 then .abort else .wild
  | _ => .wild

def Word.isCaller (r : Nat) : Option Word → Bool
  | some (.caller r') => r = r'
  | _ => false

/-- Whether the caller finds its stack pointer and registers x19 to x30 as they were. -/
def Mach.restored (m : Mach) : Bool := m.sp = 0 && [19, 20, 21, 22, 23, 24, 25, 26, 27, 28, 29, 30].all fun r => Word.isCaller r (m.reg r)

/-- A jump if the condition holds. -/
def branch (m : Mach) (s : St (GFn CBody)) (l : Lbl) : Option Bool → ANext
  | some true => .jump l
  | some false => .next m s
  | none => bad

/-- One line.  The stack pointer has to be a multiple of 16 when it is used for an access and at calls. -/
def astep (env : Env) (line : Line) (m : Mach) (s : St (GFn CBody)) : ANext :=
  match line with
  | .label _ => .next m s
  | .exe .. => .next m s
  | .letters .. => .next m s
  | .ldr rd rb off =>
    match (m.reg rb).bind fun w => m.load env w off with
    | some w => .next (m.setReg rd w) s
    | none => bad
  | .str rs rb off =>
    match m.reg rs, m.reg rb with
    | some w, some (.stk a) => if m.onStack (a + off) then .next (m.setMem (a + off) w) s else bad
    | _, _ => bad
  | .strz rb off =>
    match m.reg rb with
    | some (.stk a) => if m.onStack (a + off) then .next (m.setMem (a + off) (.int 0)) s else bad
    | _ => bad
  | .strSp rs off =>
    match m.reg rs with
    | some w => if m.sp % 16 = 0 ∧ m.onStack (m.sp + off) then .next (m.setMem (m.sp + off) w) s else bad
    | none => bad
  | .stp r1 r2 off =>
    match m.reg r1, m.reg r2 with
    | some w1, some w2 =>
      if m.sp % 16 = 0 ∧ m.onStack (m.sp + off) ∧ m.onStack (m.sp + off + 8) then .next ((m.setMem (m.sp + off) w1).setMem (m.sp + off + 8) w2) s else bad
    | _, _ => bad
  | .stpPre r1 r2 n =>
    match m.reg r1, m.reg r2 with
    | some w1, some w2 =>
      let m : Mach := { m with sp := m.sp - n }
      if m.sp % 16 = 0 ∧ m.onStack m.sp ∧ m.onStack (m.sp + 8) then .next ((m.setMem m.sp w1).setMem (m.sp + 8) w2) s else bad
    | _, _ => bad
  | .ldp r1 r2 off =>
    if m.sp % 16 = 0 ∧ m.onStack (m.sp + off) ∧ m.onStack (m.sp + off + 8) then
      match m.mem (m.sp + off), m.mem (m.sp + off + 8) with
      | some w1, some w2 => .next ((m.setReg r1 w1).setReg r2 w2) s
      | _, _ => bad
    else bad
  | .ldpPost r1 r2 n =>
    if m.sp % 16 = 0 ∧ m.onStack m.sp ∧ m.onStack (m.sp + 8) then
      match m.mem m.sp, m.mem (m.sp + 8) with
      | some w1, some w2 => .next { (m.setReg r1 w1).setReg r2 w2 with sp := m.sp + n } s
      | _, _ => bad
    else bad
  | .mov rd rs =>
    match m.reg rs with
    | some w => .next (m.setReg rd w) s
    | none => bad
  | .movz rd => .next (m.setReg rd (.int 0)) s
  | .movi rd n => .next (m.setReg rd (.int n)) s
  | .movSp rd => .next (m.setReg rd (.stk m.sp)) s
  | .addSp rd n => .next (m.setReg rd (.stk (m.sp + n))) s
  | .subSP n => .next { m with sp := m.sp - n } s
  | .addSP n => .next { m with sp := m.sp + n } s
  | .addi rd rs n =>
    match m.reg rs with
    | some (.block k) => .next (m.setReg rd (.block (k + n))) s
    | _ => bad
  | .adr rd y => .next (m.setReg rd (.sym y)) s
  | .cmp rn i =>
    match m.reg rn with
    | some w => .next { m with flags := some (w, i) } s
    | none => bad
  | .b l => .jump l
  | .beq l => branch m s l (m.flags.bind fun f => f.1.is f.2)
  | .bcc l => branch m s l (m.flags.bind fun f => f.1.below f.2)
  | .cbz r l => branch m s l ((m.reg r).bind fun w => w.is 0)
  | .cbnz r l => branch m s l (((m.reg r).bind fun w => w.is 0).map not)
  | .bl f => if m.sp % 16 = 0 then acall env m s f else bad
  | .ret =>
    match m.reg 0 with
    | some w => .stop (if m.restored then w.result s else .wild)
    | none => bad

/-- Running lines to the end of the function: the result, and what has been logged. -/
inductive Ends (env : Env) : List Line → Mach → St (GFn CBody) → GRes CBody (GOut CBody) × List Ev → Prop where
  | next {x rest m s m' s' o} : astep env x m s = .next m' s' → Ends env rest m' s' o → Ends env (x :: rest) m s o
  | jump {x rest m s l r o} : astep env x m s = .jump l → seek l env.whole = some (.label l :: r) → Ends env r m s o → Ends env (x :: rest) m s o
  | stop {x rest m s r} : astep env x m s = .stop r → Ends env (x :: rest) m s (r, m.log)

/-- The processor when the function is called: the arguments `heap`, `profile`, `function` and `args` of
an FbleRunFunction are in x0 to x3. -/
def entry (env : Env) : Mach where
  reg r := match r with
    | 0 => some .heap
    | 1 => some env.profile
    | 2 => some .self
    | 3 => some (.argv 0)
    | r => if 19 ≤ r ∧ r ≤ 30 then some (.caller r) else none
  sp := 0
  mem := fun _ => none
  flags := none
  log := []

open Classical in
/-- What running the function gives.  A run that does not end, or goes on after the end of the code or
at a label that is not there, is `wild`. -/
noncomputable def arun (env : Env) (s : St (GFn CBody)) : GRes CBody (GOut CBody) :=
  if h : ∃ o, Ends env env.whole (entry env) s o then h.choose.1 else .wild

/-- What the run functions of a program of modules compiled to assembly do. -/
noncomputable def runA (mods : List AModule) (profiling : Bool) : Runs CBody
  | .interp code, call, statics, args, s => interpret (fun c _ => .interp c) code call statics args s
  | .gen m name, call, statics, args, s =>
    match (mods[m]?).bind fun md => md.funs.find? fun f => f.name == name with
    | none => .wild
    | some f => arun ⟨m, f.body, statics, args, profiling, call⟩ s

end Verif.Backend
