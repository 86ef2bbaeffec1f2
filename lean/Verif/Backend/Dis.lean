import Verif.Backend.A64Text
import Verif.Backend.CProgram
/-
C95: the text that fble-disassemble writes for a module, /repo/lib/code.c:200-521.

SIMPLIFIED: sizes are below 2^63, so that `%zi` prints them as they are.  The names and locations of the blocks, the locations of instructions and the debug information are
parameters; of instructions, functions and profile operations nothing is left out.
-/
namespace Verif.Backend.Dis
open Verif.Compile
open Verif.Text (Byte Str ch)
open Verif.Select (Branch)

/-- FbleDebugInfo, code.h: a statement, or a variable; `name` is what FblePrintName prints for it. -/
inductive Debug where
  | stmt (loc : SrcLoc)
  | var (name : Str) (v : Var)

/-- What the compiler collects along with the code: the profile blocks; the location of the instruction of the function with this block at this place, if it has one, and its debug information. -/
structure Info where
  names : List (Str × SrcLoc)
  loc : Nat → Nat → SrcLoc
  debug : Nat → Nat → List Debug

/-- The beginning of the output: the module path as FblePrintModulePath prints it, the file, and the paths of the modules it refers to. -/
structure Header where
  path : Str
  source : Str
  deps : List Str

/-- A new line. -/
def nl : Str := [10]

/-- `%4zi`. -/
def dec4 (n : Nat) : Str := List.replicate (4 - (dec n).length) (ch ' ') ++ dec n

/-- `%s:%zi:%zi`. -/
def locText (l : SrcLoc) : Str := l.source ++ ch ':' :: dec l.line ++ ch ':' :: dec l.col

/-- code.c:200-203 `PrintLoc`. -/
def printLoc (l : SrcLoc) : Str := word "  @ " ++ locText l ++ nl

/-- code.c:209 `var_tags`, with the index. -/
def varText : Var → Str
  | .static i => ch 's' :: dec i
  | .arg i => ch 'a' :: dec i
  | .loc i => ch 'l' :: dec i

/-- What follows the first one of a list: code.c:303-308. -/
def more {α} (f : α → Str) (as : List α) : Str := as.flatMap fun a => word ", " ++ f a

/-- A list with commas: code.c:303-308, 347-355, 369-374, 386-393, 406-413, 483-488, 498-502. -/
def commas {α} (f : α → Str) : List α → Str
  | [] => []
  | a :: as => f a ++ more f as

/-- A target of a select: code.c:349-351. -/
def branchText (b : Branch) : Str := dec b.tag ++ word ": " ++ dec b.target

/-- `NAME[%04zx]` for a block: code.c:236, 267, 275 and 365. -/
def blockText (info : Info) (b : Nat) : Option Str := (info.names[b]?).map fun n => n.1 ++ ch '[' :: Gen.hexPad 4 b ++ [ch ']']

/-- An instruction of a function with block `base`: code.c:295-508, without the location and the number in front. -/
def instrText (info : Info) (base : Nat) : Instr → Option Str
  | .struct args dest => some (ch 'l' :: dec dest ++ word " = struct(" ++ commas varText args ++ word ");")
  | .union tag arg dest => some (ch 'l' :: dec dest ++ word " = union(" ++ dec tag ++ word ": " ++ varText arg ++ word ");")
  | .structAccess obj tag dest => some (ch 'l' :: dec dest ++ word " = " ++ varText obj ++ word "." ++ dec tag ++ word ";")
  | .unionAccess obj tag dest => some (ch 'l' :: dec dest ++ word " = " ++ varText obj ++ word "." ++ dec tag ++ word ";")
  | .select c numTags targets default => some (word "goto " ++ varText c ++ word ".?(" ++ commas branchText targets ++ (if targets = [] then [] else word ", ") ++
      word ": " ++ dec default ++ word " of " ++ dec numTags ++ word ");")
  | .goto target => some (word "goto " ++ dec target ++ word ";")
  | .func _ off scope dest => (blockText info (base + off)).map fun t => ch 'l' :: dec dest ++ word " = func " ++ t ++ word " [" ++ commas varText scope ++ word "]; +" ++ dec off
  | .call func args dest => some (ch 'l' :: dec dest ++ word " = " ++ varText func ++ word "(" ++ commas varText args ++ word ");")
  | .tailCall func args => some (word "return " ++ varText func ++ word "(" ++ commas varText args ++ word ");")
  | .copy source dest => some (ch 'l' :: dec dest ++ word " = " ++ varText source ++ word ";")
  | .refValue dest => some (ch 'l' :: dec dest ++ word " = ref;")
  | .refDef ref value => some (ch 'l' :: dec ref ++ word " ~= " ++ varText value ++ word ";")
  | .ret result => some (word "return " ++ varText result ++ word ";")
  | .type dest => some (ch 'l' :: dec dest ++ word " = type;")
  | .list args dest => some (ch 'l' :: dec dest ++ word " = list(" ++ commas varText args ++ word ");")
  | .literal letters dest => some (ch 'l' :: dec dest ++ word " = literal(" ++ commas dec letters ++ word ");")
  | .nop => some (word "nop;")

/-- The instructions that are followed by their location: code.c:329, 357, 415, 438 and 461. -/
def located : Instr → Bool
  | .structAccess .. | .unionAccess .. | .select .. | .call .. | .tailCall .. | .refDef .. => true
  | _ => false

/-- code.c:245-259. -/
def debugText : Debug → Str
  | .stmt l => word "    .  stmt;" ++ printLoc l
  | .var name v => word "    .  var " ++ name ++ ch ' ' :: varText v ++ nl

/-- code.c:262-291: the number of a block is looked up as it is. -/
def opText (info : Info) : POp → Option Str
  | .enter b => (blockText info b).bind fun t => (info.names[b]?).map fun n => word "    .  profile enter " ++ t ++ word ";" ++ printLoc n.2
  | .replace b => (blockText info b).bind fun t => (info.names[b]?).map fun n => word "    .  profile replace " ++ t ++ word ";" ++ printLoc n.2
  | .exit => some (word "    .  profile exit;" ++ nl)
  | .sample n => some (word "    .  profile sample " ++ dec n ++ word ";" ++ nl)

/-- The line of the instruction at `pc`: code.c:293-509. -/
def lineText (info : Info) (base pc : Nat) (i : Instr) : Option Str :=
  (instrText info base i).map fun t => dec4 pc ++ word ".  " ++ t ++ if located i then printLoc (info.loc base pc) else nl

/-- What is printed for the instruction at `pc`, with the profile operations `ops` in front of it: code.c:241-509. -/
def stepText (info : Info) (base pc : Nat) (i : Instr) (ops : List POp) : Option Str :=
  (ops.mapM (opText info)).bind fun os => (lineText info base pc i).map fun t => (info.debug base pc).flatMap debugText ++ os.flatten ++ t

/-- code.c:241-510: the loop over the instructions from `pc` on. -/
def stepsText (info : Info) (base pc : Nat) (ops : Nat → List POp) : List Instr → Option Str
  | [] => some []
  | i :: is => (stepText info base pc i (ops pc)).bind fun t => (stepsText info base (pc + 1) ops is).map fun ts => t ++ ts

/-- A function: code.c:233-511. -/
def codeText (info : Info) (f : Nat × Code) : Option Str :=
  (blockText info f.1).bind fun t => (info.names[f.1]?).bind fun n => (stepsText info f.1 0 (fun pc => f.2.profile.getD pc []) f.2.instrs).map fun ts =>
    t ++ nl ++ (word "  args: " ++ dec f.2.numArgs ++ word ", statics: " ++ dec f.2.numStatics ++ word ", locals: " ++ dec f.2.numLocals ++ nl ++ printLoc n.2) ++ ts ++ nl ++ nl

/-- The functions in a list of instructions, in order, with their blocks: code.c:375. -/
def inner (base : Nat) : List Instr → List (Nat × Code)
  | [] => []
  | .func code off _ _ :: is => (base + off, code) :: inner base is
  | _ :: is => inner base is

/-- code.c:232-512: the functions in the order they are printed, with a bound on the number of steps.  The last element of the vector is the first of the list. -/
def order : Nat → List (Nat × Code) → Option (List (Nat × Code))
  | _, [] => some []
  | 0, _ :: _ => none
  | n + 1, f :: fs => (order n ((inner f.1 f.2.instrs).reverse ++ fs)).map fun os => f :: os

/-- code.c:211-225. -/
def headerText (h : Header) : Str :=
  word "Module: " ++ h.path ++ nl ++ word "Source: " ++ h.source ++ nl ++ nl ++ word "Dependencies:" ++ nl ++
    (if h.deps = [] then word "  (none)" ++ nl else []) ++ h.deps.flatMap (fun d => word "  " ++ d ++ nl) ++ nl

/-- code.c:514-519. -/
def blocksText (i : Nat) : List (Str × SrcLoc) → Str
  | [] => []
  | n :: ns => word "  [" ++ Gen.hexPad 4 i ++ word "] " ++ n.1 ++ ch ' ' :: locText n.2 ++ nl ++ blocksText (i + 1) ns

/-- FbleDisassemble, code.c:206-521: it ends after some number of steps, and has printed `out`. -/
def Disassembles (h : Header) (info : Info) (code : Code) (out : Str) : Prop :=
  ∃ n fs ts, order n [(0, code)] = some fs ∧ fs.mapM (codeText info) = some ts ∧ out = headerText h ++ ts.flatten ++ word "Profile Blocks:" ++ nl ++ blocksText 0 info.names

/-! ### Specification -/

/-- What a reader of an instruction is to know: the instruction, but for the function that is made, of which the block is to be known, and whether a field is one of a struct or a union. -/
inductive Shown : Nat → Instr → Nat → Instr → Prop
  | same {b b' i} : (∀ c off scope dest, i ≠ .func c off scope dest) → Shown b i b' i
  | access {b b' obj tag dest} : Shown b (.structAccess obj tag dest) b' (.unionAccess obj tag dest)
  | access' {b b' obj tag dest} : Shown b (.unionAccess obj tag dest) b' (.structAccess obj tag dest)
  | func {b b' c c' off off' scope dest} : b + off = b' + off' → off = off' → Shown b (.func c off scope dest) b' (.func c' off' scope dest)

/-! ### Reading -/

def isDig (b : Byte) : Bool := 48 ≤ b.toNat && b.toNat ≤ 57

def readDec (s : Str) : Nat × Str := (undec (s.takeWhile isDig), s.dropWhile isDig)

/-- No digit comes first. -/
def Stop (s : Str) : Prop := ∀ b, s.head? = some b → isDig b = false

theorem readDec_dec (n : Nat) {r : Str} (hr : Stop r) : readDec (dec n ++ r) = (n, r) := by
  have h1 : ∀ b ∈ dec n, isDig b = true := fun b hb => by
    have := dec_digits n b hb
    simp [isDig, this]
  have h2 : r.takeWhile isDig = [] ∧ r.dropWhile isDig = r := by
    cases r with
    | nil => simp
    | cons b r => have := hr b rfl; simp [this]
  unfold readDec
  rw [List.takeWhile_append_of_pos h1, List.dropWhile_append_of_pos h1, h2.1, h2.2, List.append_nil, undec_dec]

def readNum (s : Str) : Option (Nat × Str) :=
  match s with
  | d :: s => if isDig d then some (readDec (d :: s)) else none
  | [] => none

theorem readNum_dec (n : Nat) {r : Str} (hr : Stop r) : readNum (dec n ++ r) = some (n, r) := by
  have h := readDec_dec n hr
  cases hd : dec n with
  | nil => exact absurd hd (dec_ne n)
  | cons d t =>
    have h1 := dec_digits n d (by rw [hd]; exact List.mem_cons_self ..)
    rw [hd, List.cons_append] at h
    simp only [List.cons_append, readNum]
    rw [if_pos (by simp [isDig, h1]), h]

theorem readNum_stop {r : Str} (hr : Stop r) : readNum r = none := by
  cases r with
  | nil => rfl
  | cons b r => simp [readNum, hr b rfl]

def readVar (s : Str) : Option (Var × Str) :=
  match s with
  | t :: s => (readNum s).bind fun x => if t = 115 then some (.static x.1, x.2) else if t = 97 then some (.arg x.1, x.2) else if t = 108 then some (.loc x.1, x.2) else none
  | [] => none

theorem readVar_var (v : Var) {r : Str} (hr : Stop r) : readVar (varText v ++ r) = some (v, r) := by
  cases v <;> simp [varText, readVar, readNum_dec _ hr, ch]

def strip : Str → Str → Option Str
  | [], s => some s
  | p :: ps, c :: s => if p = c then strip ps s else none
  | _ :: _, [] => none

theorem strip_append (p s : Str) : strip p (p ++ s) = some s := by
  induction p with
  | nil => rfl
  | cons a p ih => simp [strip, ih]

def readMore {α} (rd : Str → Option (α × Str)) : Nat → Str → List α × Str
  | 0, s => ([], s)
  | n + 1, s => match strip [44, 32] s with
    | none => ([], s)
    | some s' => match rd s' with
      | none => ([], s)
      | some (a, s'') => let r := readMore rd n s''; (a :: r.1, r.2)

def readList {α} (rd : Str → Option (α × Str)) (s : Str) : List α × Str :=
  match rd s with
  | none => ([], s)
  | some (a, s') => let r := readMore rd s'.length s'; (a :: r.1, r.2)

section
variable {α : Type} {rd : Str → Option (α × Str)} {f : α → Str}

theorem more_stop (as : List α) {r : Str} (hr : Stop r) : Stop (more f as ++ r) := by
  cases as with
  | nil => exact hr
  | cons a as =>
    intro b hb
    simp [more, word, ch] at hb
    subst hb
    decide

theorem readMore_more (h : ∀ a r, Stop r → rd (f a ++ r) = some (a, r)) {r : Str} (hr : Stop r) (he : ∀ n, readMore rd n r = ([], r)) :
    ∀ (as : List α) (n : Nat), as.length ≤ n → readMore rd n (more f as ++ r) = (as, r)
  | [], n, _ => he n
  | a :: as, 0, hn => by simp at hn
  | a :: as, n + 1, hn => by
    have hs : more f (a :: as) ++ r = [44, 32] ++ (f a ++ (more f as ++ r)) := by
      simp [more, show word ", " = [44, 32] by decide]
    rw [hs, readMore, strip_append]
    simp only
    rw [h a _ (more_stop as hr)]
    simp only
    rw [readMore_more h hr he as n (by simpa using hn)]

theorem more_length (as : List α) (r : Str) : as.length ≤ (more f as ++ r).length := by
  induction as with
  | nil => simp
  | cons a as ih =>
    simp only [more, List.flatMap_cons, List.length_append, List.length_cons] at ih ⊢
    have : (word ", ").length = 2 := by decide
    omega

theorem readList_commas (h : ∀ a r, Stop r → rd (f a ++ r) = some (a, r)) {r : Str} (hr : Stop r) (he : ∀ n, readMore rd n r = ([], r)) (as : List α) (h0 : as = [] → rd r = none) :
    readList rd (commas f as ++ r) = (as, r) := by
  cases as with
  | nil => simp [commas, readList, h0 rfl]
  | cons a as =>
    unfold readList
    rw [commas, List.append_assoc, h a _ (more_stop as hr)]
    simp only
    rw [readMore_more h hr he as _ (more_length as r)]

theorem readMore_end {c : Byte} {r : Str} (hc : c ≠ 44) (n : Nat) : readMore rd n (c :: r) = ([], c :: r) := by
  cases n with
  | zero => rfl
  | succ n => simp [readMore, strip, Ne.symm hc]

end

/-- A list of variables in front of something that is not one. -/
theorem readVars {c : Byte} {r : Str} (hc : c = 41 ∨ c = 93) (vs : List Var) : readList readVar (commas varText vs ++ c :: r) = (vs, c :: r) := by
  have hs : Stop (c :: r) := by
    intro b hb
    simp at hb
    rcases hc with rfl | rfl <;> subst hb <;> decide
  refine readList_commas (fun a r => readVar_var a) hs (readMore_end (by rcases hc with rfl | rfl <;> decide)) vs fun _ => ?_
  cases h : readNum r with
  | none => simp [readVar, h]
  | some x => rcases hc with rfl | rfl <;> simp [readVar, h]

theorem readNums {c : Byte} {r : Str} (hc : c = 41) (ns : List Nat) : readList readNum (commas dec ns ++ c :: r) = (ns, c :: r) := by
  have hs : Stop (c :: r) := by
    intro b hb
    simp at hb
    subst hc; subst hb; decide
  exact readList_commas (fun a r => readNum_dec a) hs (readMore_end (by subst hc; decide)) ns fun _ => readNum_stop hs

def readBranch (s : Str) : Option (Branch × Str) :=
  (readNum s).bind fun x => (strip [58, 32] x.2).bind fun s => (readNum s).map fun y => (⟨x.1, y.1⟩, y.2)

theorem readBranch_text (b : Branch) {r : Str} (hr : Stop r) : readBranch (branchText b ++ r) = some (b, r) := by
  have hw : word ": " = [58, 32] := by decide
  have h1 : Stop (58 :: 32 :: (dec b.target ++ r)) := by intro c hc; simp at hc; subst hc; decide
  simp only [readBranch, branchText, hw, List.append_assoc]
  rw [readNum_dec _ (by simpa using h1), Option.bind_some, strip_append, Option.bind_some, readNum_dec _ hr]
  rfl

theorem readBranches {r : Str} (hr : r = 58 :: r') (bs : List Branch) : readList readBranch (commas branchText bs ++ ((if bs = [] then [] else word ", ") ++ r)) = (bs, (if bs = [] then [] else word ", ") ++ r) := by
  have hw : word ", " = [44, 32] := by decide
  have hs : Stop r := by subst hr; intro c hc; simp at hc; subst hc; decide
  have hb : readBranch r = none := by simp [readBranch, readNum_stop hs]
  have hs' : Stop ((if bs = [] then [] else word ", ") ++ r) := by
    split
    · exact hs
    · rw [hw]; intro c hc; simp at hc; subst hc; decide
  refine readList_commas (fun a r => readBranch_text a) hs' (fun n => ?_) bs fun h => by rw [if_pos h]; exact hb
  split
  · subst hr; exact readMore_end (by decide) n
  · rw [hw]
    cases n with
    | zero => rfl
    | succ n => simp [readMore, strip, hb]

/-- What is read. -/
inductive Rd where
  | instr (i : Instr)
  | func (dest : Nat) (rest : Str)

/-- Reading an instruction.  An access is read as one of a struct. -/
def read (s : Str) : Option Rd :=
  match strip [108] s with
  | some s =>
    let d := (readDec s).1
    let s := (readDec s).2
    match strip [32, 126, 61, 32] s with
    | some s => (readVar s).map fun v => .instr (.refDef d v.1)
    | none =>
      let s := s.drop 3
      match readVar s with
      | some (v, s) =>
        match strip [46] s with
        | some s => some (.instr (.structAccess v (readDec s).1 d))
        | none => match strip [40] s with
          | some s => some (.instr (.call v (readList readVar s).1 d))
          | none => some (.instr (.copy v d))
      | none =>
        match strip [115, 116, 114, 117, 99, 116, 40] s with
        | some s => some (.instr (.struct (readList readVar s).1 d))
        | none => match strip [117, 110, 105, 111, 110, 40] s with
          | some s => (readVar ((readDec s).2.drop 2)).map fun v => .instr (.union (readDec s).1 v.1 d)
          | none => match strip [102, 117, 110, 99, 32] s with
            | some s => some (.func d s)
            | none => match strip [114, 101, 102] s with
              | some _ => some (.instr (.refValue d))
              | none => match strip [116, 121, 112, 101] s with
                | some _ => some (.instr (.type d))
                | none => match strip [108, 105, 115, 116, 40] s with
                  | some s => some (.instr (.list (readList readVar s).1 d))
                  | none => match strip [108, 105, 116, 101, 114, 97, 108, 40] s with
                    | some s => some (.instr (.literal (readList readNum s).1 d))
                    | none => none
  | none => match strip [103, 111, 116, 111, 32] s with
    | some s => match readVar s with
      | some (c, s) =>
        let r := readList readBranch (s.drop 3)
        let s := r.2.drop (if r.1 = [] then 2 else 4)
        some (.instr (.select c (readDec ((readDec s).2.drop 4)).1 r.1 (readDec s).1))
      | none => some (.instr (.goto (readDec s).1))
    | none => match strip [114, 101, 116, 117, 114, 110, 32] s with
      | some s => (readVar s).map fun v => match strip [40] v.2 with
        | some s => .instr (.tailCall v.1 (readList readVar s).1)
        | none => .instr (.ret v.1)
      | none => some (.instr .nop)

/-- How an instruction is read. -/
def Instr.plain : Instr → Instr
  | .unionAccess obj tag dest => .structAccess obj tag dest
  | i => i

theorem stop_cons {c : Byte} {r : Str} (h : isDig c = false) : Stop (c :: r) := by
  intro b hb
  simp at hb
  subst hb
  exact h

theorem readVar_cons (v : Var) {c : Byte} {r : Str} (h : isDig c = false) : readVar (varText v ++ c :: r) = some (v, c :: r) := readVar_var v (stop_cons h)

theorem readDec_cons (n : Nat) {c : Byte} {r : Str} (h : isDig c = false) : readDec (dec n ++ c :: r) = (n, c :: r) := readDec_dec n (stop_cons h)

theorem read_dest (d : Nat) (s : Str) : read (ch 'l' :: (dec d ++ (32 :: s))) = match strip [32, 126, 61, 32] (32 :: s) with
    | some s => (readVar s).map fun v => .instr (.refDef d v.1)
    | none =>
      let s := s.drop 2
      match readVar s with
      | some (v, s) =>
        match strip [46] s with
        | some s => some (.instr (.structAccess v (readDec s).1 d))
        | none => match strip [40] s with
          | some s => some (.instr (.call v (readList readVar s).1 d))
          | none => some (.instr (.copy v d))
      | none =>
        match strip [115, 116, 114, 117, 99, 116, 40] s with
        | some s => some (.instr (.struct (readList readVar s).1 d))
        | none => match strip [117, 110, 105, 111, 110, 40] s with
          | some s => (readVar ((readDec s).2.drop 2)).map fun v => .instr (.union (readDec s).1 v.1 d)
          | none => match strip [102, 117, 110, 99, 32] s with
            | some s => some (.func d s)
            | none => match strip [114, 101, 102] s with
              | some _ => some (.instr (.refValue d))
              | none => match strip [116, 121, 112, 101] s with
                | some _ => some (.instr (.type d))
                | none => match strip [108, 105, 115, 116, 40] s with
                  | some s => some (.instr (.list (readList readVar s).1 d))
                  | none => match strip [108, 105, 116, 101, 114, 97, 108, 40] s with
                    | some s => some (.instr (.literal (readList readNum s).1 d))
                    | none => none := by
  rw [read, show ch 'l' = 108 from rfl, strip, if_pos rfl, strip]
  simp only
  rw [readDec_cons d (by decide)]
  rfl

theorem reads_at (base : Nat) {info : Info} {i : Instr} {t : Str} (h : instrText info base i = some t) (tl : Str) :
    (∃ c off scope dest n, i = .func c off scope dest ∧ read (t ++ tl) = some (.func dest (n ++ ch '[' :: Gen.hexPad 4 (base + off) ++ [ch ']'] ++ word " [" ++ commas varText scope ++ word "]; +" ++ dec off ++ tl))) ∨
    ((∀ c off scope dest, i ≠ .func c off scope dest) ∧ read (t ++ tl) = some (.instr (Instr.plain i))) := by
  cases i with
  | func c off scope dest =>
    refine .inl ?_
    simp only [instrText, Option.map_eq_some_iff, blockText] at h
    obtain ⟨_, ⟨n, -, rfl⟩, rfl⟩ := h
    refine ⟨_, _, _, _, n.1, rfl, ?_⟩
    rw [show word " = func " = [32, 61, 32, 102, 117, 110, 99, 32] by decide]
    simp only [List.append_assoc, List.cons_append, List.nil_append]
    rw [read_dest]
    simp [strip, readVar, readNum, isDig]
  | struct args dest =>
    refine .inr ⟨by simp, ?_⟩
    simp only [instrText, Option.some.injEq] at h
    subst h
    rw [show word " = struct(" = [32, 61, 32, 115, 116, 114, 117, 99, 116, 40] by decide, show word ");" = [41, 59] by decide]
    simp only [List.append_assoc, List.cons_append, List.nil_append]
    rw [read_dest]
    simp [strip, readVar, readNum, isDig, readVars, Instr.plain]
  | union tag arg dest =>
    refine .inr ⟨by simp, ?_⟩
    simp only [instrText, Option.some.injEq] at h
    subst h
    rw [show word " = union(" = [32, 61, 32, 117, 110, 105, 111, 110, 40] by decide, show word ");" = [41, 59] by decide, show word ": " = [58, 32] by decide]
    simp only [List.append_assoc, List.cons_append, List.nil_append]
    rw [read_dest]
    have h1 : ∀ s, readVar (117 :: 110 :: s) = none := fun s => by simp [readVar, readNum, isDig]
    simp [strip, h1, readDec_cons, isDig, readVar_cons, Instr.plain]
  | structAccess obj tag dest =>
    refine .inr ⟨by simp, ?_⟩
    simp only [instrText, Option.some.injEq] at h
    subst h
    rw [show word " = " = [32, 61, 32] by decide, show word "." = [46] by decide, show word ";" = [59] by decide]
    simp only [List.append_assoc, List.cons_append, List.nil_append]
    rw [read_dest]
    simp [strip, isDig, readVar_cons, readDec_cons, Instr.plain]
  | unionAccess obj tag dest =>
    refine .inr ⟨by simp, ?_⟩
    simp only [instrText, Option.some.injEq] at h
    subst h
    rw [show word " = " = [32, 61, 32] by decide, show word "." = [46] by decide, show word ";" = [59] by decide]
    simp only [List.append_assoc, List.cons_append, List.nil_append]
    rw [read_dest]
    simp [strip, isDig, readVar_cons, readDec_cons, Instr.plain]
  | call func args dest =>
    refine .inr ⟨by simp, ?_⟩
    simp only [instrText, Option.some.injEq] at h
    subst h
    rw [show word " = " = [32, 61, 32] by decide, show word "(" = [40] by decide, show word ");" = [41, 59] by decide]
    simp only [List.append_assoc, List.cons_append, List.nil_append]
    rw [read_dest]
    simp [strip, isDig, readVar_cons, readVars, Instr.plain]
  | copy source dest =>
    refine .inr ⟨by simp, ?_⟩
    simp only [instrText, Option.some.injEq] at h
    subst h
    rw [show word " = " = [32, 61, 32] by decide, show word ";" = [59] by decide]
    simp only [List.append_assoc, List.cons_append, List.nil_append]
    rw [read_dest]
    simp [strip, isDig, readVar_cons, Instr.plain]
  | refValue dest =>
    refine .inr ⟨by simp, ?_⟩
    simp only [instrText, Option.some.injEq] at h
    subst h
    rw [show word " = ref;" = [32, 61, 32, 114, 101, 102, 59] by decide]
    simp only [List.append_assoc, List.cons_append, List.nil_append]
    rw [read_dest]
    simp [strip, readVar, readNum, isDig, Instr.plain]
  | refDef ref value =>
    refine .inr ⟨by simp, ?_⟩
    simp only [instrText, Option.some.injEq] at h
    subst h
    rw [show word " ~= " = [32, 126, 61, 32] by decide, show word ";" = [59] by decide]
    simp only [List.append_assoc, List.cons_append, List.nil_append]
    rw [read_dest]
    simp [strip, isDig, readVar_cons, Instr.plain]
  | type dest =>
    refine .inr ⟨by simp, ?_⟩
    simp only [instrText, Option.some.injEq] at h
    subst h
    rw [show word " = type;" = [32, 61, 32, 116, 121, 112, 101, 59] by decide]
    simp only [List.append_assoc, List.cons_append, List.nil_append]
    rw [read_dest]
    simp [strip, readVar, readNum, isDig, Instr.plain]
  | list args dest =>
    refine .inr ⟨by simp, ?_⟩
    simp only [instrText, Option.some.injEq] at h
    subst h
    rw [show word " = list(" = [32, 61, 32, 108, 105, 115, 116, 40] by decide, show word ");" = [41, 59] by decide]
    simp only [List.append_assoc, List.cons_append, List.nil_append]
    rw [read_dest]
    simp [strip, readVar, readNum, isDig, readVars, Instr.plain]
  | literal letters dest =>
    refine .inr ⟨by simp, ?_⟩
    simp only [instrText, Option.some.injEq] at h
    subst h
    rw [show word " = literal(" = [32, 61, 32, 108, 105, 116, 101, 114, 97, 108, 40] by decide, show word ");" = [41, 59] by decide]
    simp only [List.append_assoc, List.cons_append, List.nil_append]
    rw [read_dest]
    simp [strip, readVar, readNum, isDig, readNums, Instr.plain]
  | select c numTags targets default =>
    refine .inr ⟨by simp, ?_⟩
    simp only [instrText, Option.some.injEq] at h
    subst h
    rw [show word "goto " = [103, 111, 116, 111, 32] by decide, show word ".?(" = [46, 63, 40] by decide, show word ": " = [58, 32] by decide, show word " of " = [32, 111, 102, 32] by decide,
      show word ");" = [41, 59] by decide]
    simp only [List.append_assoc, List.cons_append, List.nil_append]
    simp only [read, strip]
    simp only [show ((108 : Byte) = 103) = False from by decide, if_false, if_true]
    rw [readVar_cons c (by decide)]
    simp only [List.drop_succ_cons, List.drop_zero]
    rw [readBranches rfl]
    have hd : List.drop (if targets = [] then 2 else 4) ((if targets = [] then [] else word ", ") ++ 58 :: 32 :: (dec default ++ 32 :: 111 :: 102 :: 32 :: (dec numTags ++ 41 :: 59 :: tl))) =
        dec default ++ 32 :: 111 :: 102 :: 32 :: (dec numTags ++ 41 :: 59 :: tl) := by
      rw [show word ", " = [44, 32] by decide]
      split <;> simp
    simp only
    rw [hd]
    simp [isDig, readDec_cons, Instr.plain]
  | goto target =>
    refine .inr ⟨by simp, ?_⟩
    simp only [instrText, Option.some.injEq] at h
    subst h
    have hv : readVar (dec target ++ 59 :: tl) = none := by
      cases hd : dec target with
      | nil => exact absurd hd (dec_ne _)
      | cons d t =>
        have h1 := dec_digits target d (by rw [hd]; exact List.mem_cons_self ..)
        have : ∀ k : Byte, 57 < k.toNat → d ≠ k := by rintro k hk rfl; omega
        rw [List.cons_append]
        cases hn : readNum (t ++ 59 :: tl) with
        | none => simp [readVar, hn]
        | some x => simp [readVar, hn, this 115 (by decide), this 97 (by decide), this 108 (by decide)]
    rw [show word "goto " = [103, 111, 116, 111, 32] by decide, show word ";" = [59] by decide]
    simp only [List.append_assoc, List.cons_append, List.nil_append]
    simp only [read, strip]
    simp only [show ((108 : Byte) = 103) = False from by decide, if_false, if_true]
    rw [hv]
    simp [isDig, readDec_cons, Instr.plain]
  | tailCall func args =>
    refine .inr ⟨by simp, ?_⟩
    simp only [instrText, Option.some.injEq] at h
    subst h
    rw [show word "return " = [114, 101, 116, 117, 114, 110, 32] by decide, show word "(" = [40] by decide, show word ");" = [41, 59] by decide]
    simp only [List.append_assoc, List.cons_append, List.nil_append]
    simp [read, strip, isDig, readVar_cons, readVars, Instr.plain]
  | ret result =>
    refine .inr ⟨by simp, ?_⟩
    simp only [instrText, Option.some.injEq] at h
    subst h
    rw [show word "return " = [114, 101, 116, 117, 114, 110, 32] by decide, show word ";" = [59] by decide]
    simp only [List.append_assoc, List.cons_append, List.nil_append]
    simp [read, strip, isDig, readVar_cons, Instr.plain]
  | nop =>
    refine .inr ⟨by simp, ?_⟩
    simp only [instrText, Option.some.injEq] at h
    subst h
    rw [show word "nop;" = [110, 111, 112, 59] by decide]
    simp [read, strip, Instr.plain]

theorem last_split {c : Byte} : ∀ {a a' x x' : Str}, c ∉ x → c ∉ x' → a ++ c :: x = a' ++ c :: x' → a = a' ∧ x = x'
  | [], [], _, _, _, _, h => by simpa using h
  | [], b :: a', x, x', hx, _, h => by
    simp at h
    exact absurd (h.2 ▸ (by simp : c ∈ a' ++ c :: x')) hx
  | b :: a, [], x, x', _, hx', h => by
    simp at h
    exact absurd (h.2 ▸ (by simp : c ∈ a ++ c :: x)) hx'
  | b :: a, b' :: a', _, _, hx, hx', h => by
    simp at h
    obtain ⟨h1, h2⟩ := h
    have := last_split hx hx' h2
    exact ⟨by rw [h1, this.1], this.2⟩

theorem dec_noBracket (n : Nat) : (91 : Byte) ∉ dec n := fun h => by
  have := dec_digits n _ h
  revert this; decide

theorem varText_noBracket (v : Var) : (91 : Byte) ∉ varText v := by
  cases v <;> simp [varText, ch, dec_noBracket] <;> decide

theorem commas_noBracket {α} {f : α → Str} (hf : ∀ a, (91 : Byte) ∉ f a) (as : List α) : (91 : Byte) ∉ commas f as := by
  cases as with
  | nil => simp [commas]
  | cons a as =>
    simp only [commas, more, List.mem_append, List.mem_flatMap, not_or, not_exists, not_and]
    refine ⟨hf a, fun b _ => ⟨by decide, hf b⟩⟩

theorem hexPad_noBracket (w n : Nat) : (91 : Byte) ∉ Gen.hexPad w n := fun h => by
  have := hexPad_all (P := fun b => b ≠ 91) (by decide) w n _ h
  exact this rfl

theorem dec_noColon (n : Nat) : (58 : Byte) ∉ dec n := fun h => by
  have := dec_digits n _ h
  revert this; decide

theorem dec_inj {n m : Nat} (h : dec n = dec m) : n = m := by rw [← undec_dec n, h, undec_dec]

theorem locText_inj {l l' : SrcLoc} (h : locText l = locText l') : l = l' := by
  obtain ⟨s, n, c⟩ := l
  obtain ⟨s', n', c'⟩ := l'
  simp only [locText] at h
  obtain ⟨h1, h2⟩ := last_split (c := ch ':') (dec_noColon c) (dec_noColon c') h
  obtain ⟨h3, h4⟩ := last_split (c := ch ':') (dec_noColon n) (dec_noColon n') h1
  rw [h3, dec_inj h4, dec_inj h2]

theorem printLoc_inj {l l' : SrcLoc} (h : printLoc l = printLoc l') : l = l' := by
  simp only [printLoc, List.append_assoc] at h
  exact locText_inj (List.append_cancel_right (List.append_cancel_left h))

theorem varText_inj {v v' : Var} (h : varText v = varText v') : v = v' := by
  have h1 := readVar_var v (r := []) (by intro b hb; cases hb)
  rw [h, readVar_var v' (r := []) (by intro b hb; cases hb)] at h1
  simpa using h1.symm

theorem varText_noSpace (v : Var) : (32 : Byte) ∉ varText v := by
  have : ∀ n, (32 : Byte) ∉ dec n := fun n h => by
    have := dec_digits n _ h
    revert this; decide
  cases v <;> simp [varText, ch, this] <;> decide

/-- C95: the debug information of an instruction can be read off its line. -/
theorem C95_debug {d d' : Debug} (h : debugText d = debugText d') : d = d' := by
  have hw1 : word "    .  stmt;" = [32, 32, 32, 32, 46, 32, 32, 115, 116, 109, 116, 59] := by decide
  have hw2 : word "    .  var " = [32, 32, 32, 32, 46, 32, 32, 118, 97, 114, 32] := by decide
  cases d with
  | stmt l =>
    cases d' with
    | stmt l' => rw [printLoc_inj (List.append_cancel_left h)]
    | var n v => simp [debugText, hw1, hw2] at h
  | var n v =>
    cases d' with
    | stmt l => simp [debugText, hw1, hw2] at h
    | var n' v' =>
      simp only [debugText, List.append_assoc] at h
      have h1 := List.append_cancel_left h
      rw [← List.append_assoc, ← List.append_assoc] at h1
      obtain ⟨h2, h3⟩ := last_split (c := ch ' ') (varText_noSpace v) (varText_noSpace v') (List.append_cancel_right h1)
      rw [h2, varText_inj h3]

theorem line_shown {info info' : Info} {b b' pc pc' : Nat} {i i' : Instr} {t : Str} (h : lineText info b pc i = some t) (h' : lineText info' b' pc' i' = some t) : pc = pc' ∧ Shown b i b' i' := by
  simp only [lineText, Option.map_eq_some_iff] at h h'
  obtain ⟨u, hu, rfl⟩ := h
  obtain ⟨u', hu', he⟩ := h'
  have hw : word ".  " = [46, 32, 32] := by decide
  have hdrop : ∀ n (r : Str), (dec4 n ++ word ".  " ++ r).dropWhile (· == 32) = dec n ++ 46 :: 32 :: 32 :: r := by
    intro n r
    rw [dec4, hw, List.append_assoc, List.append_assoc, List.dropWhile_append_of_pos (by intro c hc; rw [List.eq_of_mem_replicate hc]; decide)]
    cases hd : dec n with
    | nil => exact absurd hd (dec_ne n)
    | cons d t =>
      have h1 := dec_digits n d (by rw [hd]; exact List.mem_cons_self ..)
      have : d ≠ 32 := by rintro rfl; revert h1; decide
      simp [this]
  have e1 : ∀ n (r : Str), readDec ((dec4 n ++ word ".  " ++ r).dropWhile (· == 32)) = (n, 46 :: 32 :: 32 :: r) := fun n r => by rw [hdrop, readDec_cons _ (by decide)]
  have e2 := congrArg (fun s : Str => readDec (s.dropWhile (· == 32))) he
  simp only [List.append_assoc] at e1 e2
  rw [e1, e1] at e2
  simp only [Prod.mk.injEq, List.cons.injEq, true_and] at e2
  obtain ⟨hpc, e2⟩ := e2
  refine ⟨hpc.symm, ?_⟩
  have e3 := congrArg read e2
  rcases reads_at b hu (if located i then printLoc (info.loc b pc) else nl) with ⟨c, off, scope, dest, n, rfl, r⟩ | ⟨ho, r⟩ <;>
    rcases reads_at b' hu' (if located i' then printLoc (info'.loc b' pc') else nl) with ⟨c', off', scope', dest', n', rfl, r'⟩ | ⟨ho', r'⟩ <;> rw [r, r'] at e3
  · simp only [Option.some.injEq, Rd.func.injEq] at e3
    obtain ⟨rfl, e3⟩ := e3
    have hw1 : word " [" = [32, 91] := by decide
    have hw2 : word "]; +" = [93, 59, 32, 43] := by decide
    have hl : ∀ c off scope dest, located (.func c off scope dest) = false := fun _ _ _ _ => rfl
    simp only [hl, Bool.false_eq_true, if_false, hw1, hw2, show ch '[' = 91 from rfl, show ch ']' = 93 from rfl, nl, List.append_assoc, List.cons_append, List.nil_append] at e3
    have hx : ∀ scope off, (91 : Byte) ∉ commas varText scope ++ 93 :: 59 :: 32 :: 43 :: (dec off ++ [10]) := by
      intro scope off
      simp [dec_noBracket, commas_noBracket varText_noBracket]
    have f : ∀ (n h : Str) x, n ++ 91 :: (h ++ 93 :: 32 :: 91 :: x) = (n ++ 91 :: (h ++ [93, 32])) ++ 91 :: x := by simp
    rw [f, f] at e3
    obtain ⟨g1, g2⟩ := last_split (hx _ _) (hx _ _) e3
    have hy : ∀ n, (91 : Byte) ∉ Gen.hexPad 4 n ++ [93, 32] := by
      intro n
      simp [hexPad_noBracket]
    have g3 := (last_split (hy _) (hy _) g1).2
    have g4 := Gen.hexPad_inj (List.append_cancel_right g3)
    have g5 := congrArg (readList readVar) g2
    rw [readVars (.inr rfl), readVars (.inr rfl)] at g5
    simp only [Prod.mk.injEq, List.cons.injEq, true_and] at g5
    obtain ⟨rfl, g6⟩ := g5
    have g7 := congrArg readDec g6
    rw [readDec_cons _ (by decide), readDec_cons _ (by decide)] at g7
    simp only [Prod.mk.injEq, and_true] at g7
    exact .func g4.symm g7.symm
  · simp at e3
  · simp at e3
  · simp only [Option.some.injEq, Rd.instr.injEq] at e3
    cases i <;> cases i' <;> simp only [Instr.plain, reduceCtorEq, Instr.structAccess.injEq, Instr.unionAccess.injEq] at e3 <;> first
      | exact absurd rfl (ho _ _ _ _)
      | (obtain ⟨rfl, rfl, rfl⟩ := e3; first | exact .access | exact .access' | exact .same (by simp))
      | (cases e3; exact .same (by simp))

/-- C95: the line of an instruction is printed so that the place of the instruction and the instruction can be read off it: two instructions of which the lines are the same are at the same place and
differ in no more than `Shown` lets them; where there are locations they are the same. -/
theorem C95_instr {info info' : Info} {b b' pc pc' : Nat} {i i' : Instr} {t : Str} (h : lineText info b pc i = some t) (h' : lineText info' b' pc' i' = some t) :
    pc = pc' ∧ Shown b i b' i' ∧ (located i = true → info.loc b pc = info'.loc b' pc') := by
  have hs := line_shown h h'
  refine ⟨hs.1, hs.2, fun hl => ?_⟩
  obtain ⟨rfl, hs⟩ := hs
  simp only [lineText, Option.map_eq_some_iff] at h h'
  obtain ⟨u, hu, rfl⟩ := h
  obtain ⟨u', hu', he⟩ := h'
  have hl' : located i' = true := by cases hs <;> first | exact hl | rfl | cases hl
  have hu2 : u = u' := by
    cases hs with
    | same hf => cases i <;> first | exact absurd rfl (hf _ _ _ _) | exact Option.some.inj (hu.symm.trans hu')
    | access => exact Option.some.inj (hu.symm.trans hu')
    | access' => exact Option.some.inj (hu.symm.trans hu')
    | func => cases hl
  subst hu2
  rw [if_pos hl, if_pos hl'] at he
  exact (printLoc_inj (List.append_cancel_left he)).symm
/-! ### The functions -/

theorem order_mono : ∀ {n : Nat} {fs os}, order n fs = some os → order (n + 1) fs = some os
  | 0, [], os, h => by simpa [order] using h
  | 0, _ :: _, os, h => by simp [order] at h
  | n + 1, [], os, h => by simpa [order] using h
  | n + 1, f :: fs, os, h => by
    rw [order, Option.map_eq_some_iff] at h ⊢
    obtain ⟨os', h1, h2⟩ := h
    exact ⟨os', order_mono h1, h2⟩

theorem order_le {n m : Nat} {fs os} (hm : n ≤ m) (h : order n fs = some os) : order m fs = some os := by
  induction hm with
  | refl => exact h
  | step _ ih => exact order_mono ih

theorem order_same {n m : Nat} {fs os os'} (h : order n fs = some os) (h' : order m fs = some os') : os = os' := by
  have h1 := order_le (Nat.le_max_left n m) h
  have h2 := order_le (Nat.le_max_right n m) h'
  rw [h1] at h2
  exact Option.some.inj h2

theorem collectInstrs_inner (b : Nat) : ∀ is, collectInstrs b is = (inner b is).flatMap fun f => collectBlocks f.1 f.2
  | [] => by rw [collectInstrs]; rfl
  | i :: is => by
    rw [collectInstrs, collectInstrs_inner b is]
    cases i <;> simp [collectInstr, inner]

theorem collectBlocks_cons (b : Nat) (c : Code) : collectBlocks b c = (b, c) :: (inner b c.instrs).flatMap fun f => collectBlocks f.1 f.2 := by
  cases c; rw [collectBlocks, collectInstrs_inner]; rfl

theorem order_perm : ∀ (k : Nat) (fs : List (Nat × Code)), (fs.flatMap fun f => collectBlocks f.1 f.2).length ≤ k →
    ∃ os, order k fs = some os ∧ os.Perm (fs.flatMap fun f => collectBlocks f.1 f.2)
  | k, [], _ => ⟨[], by cases k <;> rfl, .nil⟩
  | 0, f :: fs, h => by rw [List.flatMap_cons, collectBlocks_cons] at h; simp at h
  | k + 1, f :: fs, h => by
    have hp : (((inner f.1 f.2.instrs).reverse ++ fs).flatMap fun f => collectBlocks f.1 f.2).Perm
        (((inner f.1 f.2.instrs).flatMap fun f => collectBlocks f.1 f.2) ++ fs.flatMap fun f => collectBlocks f.1 f.2) := by
      rw [List.flatMap_append]
      exact ((List.reverse_perm _).flatMap_right _).append_right _
    rw [List.flatMap_cons, collectBlocks_cons, List.cons_append] at h ⊢
    obtain ⟨os, h1, h2⟩ := order_perm k ((inner f.1 f.2.instrs).reverse ++ fs) (by rw [hp.length_eq]; simpa using h)
    exact ⟨f :: os, by rw [order, h1]; rfl, (h2.trans hp).cons _⟩

theorem mem_inner {b b' : Nat} {c : Code} : ∀ {is : List Instr}, (b', c) ∈ inner b is ↔ ∃ off scope d, .func c off scope d ∈ is ∧ b' = b + off
  | [] => by simp [inner]
  | i :: is => by
    cases i <;> simp [inner, mem_inner (is := is)]
    next c' off scope d =>
    constructor
    · rintro (⟨rfl, rfl⟩ | ⟨o, ⟨s, d', h⟩, rfl⟩)
      · exact ⟨off, ⟨scope, d, .inl ⟨rfl, rfl, rfl, rfl⟩⟩, rfl⟩
      · exact ⟨o, ⟨s, d', .inr h⟩, rfl⟩
    · rintro ⟨o, ⟨s, d', ⟨rfl, rfl, rfl, rfl⟩ | h⟩, rfl⟩
      · exact .inl ⟨rfl, rfl⟩
      · exact .inr ⟨o, ⟨s, d', h⟩, rfl⟩

theorem mem_blocks {b b' : Nat} {c c' : Code} : (b', c') ∈ collectBlocks b c ↔ WithinAt c b c' b' := by
  constructor
  · intro h
    have : ∀ k b c, (collectBlocks b c).length ≤ k → (b', c') ∈ collectBlocks b c → WithinAt c b c' b' := by
      intro k
      induction k with
      | zero => intro b c hk; rw [collectBlocks_cons] at hk; simp at hk
      | succ k ih =>
        intro b c hk hm
        rw [collectBlocks_cons] at hk hm
        rcases List.mem_cons.mp hm with hm | hm
        · cases hm; exact .here
        · obtain ⟨⟨b1, c1⟩, h1, h2⟩ := List.mem_flatMap.mp hm
          obtain ⟨off, scope, d, h3, rfl⟩ := mem_inner.mp h1
          refine .inner h3 (ih _ _ ?_ h2)
          obtain ⟨u, v, e⟩ := List.append_of_mem h1
          rw [e] at hk
          simp only [List.flatMap_append, List.flatMap_cons, List.length_cons, List.length_append] at hk
          omega
    exact this _ b c (Nat.le_refl _) h
  · intro h
    induction h with
    | here => exact collect_root _ _
    | inner hm _ ih =>
      rw [collectBlocks_cons]
      exact List.mem_cons_of_mem _ (List.mem_flatMap.mpr ⟨_, mem_inner.mpr ⟨_, _, _, hm, rfl⟩, ih⟩)

/-! ### That there is an output -/

theorem blockText_ok {info : Info} {b : Nat} (h : b < info.names.length) : ∃ t, blockText info b = some t := by
  rw [blockText, List.getElem?_eq_getElem h]
  exact ⟨_, rfl⟩

theorem opText_ok {info : Info} {op : POp} (h : ∀ b, op.block? = some b → b < info.names.length) : ∃ t, opText info op = some t := by
  cases op with
  | enter b =>
    obtain ⟨t, ht⟩ := blockText_ok (h b rfl)
    rw [opText, ht, List.getElem?_eq_getElem (h b rfl)]
    exact ⟨_, rfl⟩
  | replace b =>
    obtain ⟨t, ht⟩ := blockText_ok (h b rfl)
    rw [opText, ht, List.getElem?_eq_getElem (h b rfl)]
    exact ⟨_, rfl⟩
  | exit => exact ⟨_, rfl⟩
  | sample n => exact ⟨_, rfl⟩

theorem instrText_ok {info : Info} {b : Nat} {i : Instr} (h : ∀ c off scope d, i = .func c off scope d → b + off < info.names.length) : ∃ t, instrText info b i = some t := by
  cases i with
  | func c off scope d =>
    obtain ⟨t, ht⟩ := blockText_ok (h _ _ _ _ rfl)
    rw [instrText, ht]
    exact ⟨_, rfl⟩
  | _ => exact ⟨_, rfl⟩

theorem stepsText_ok {info : Info} {b : Nat} {ops : Nat → List POp} : ∀ {is : List Instr} {pc : Nat},
    (∀ i ∈ is, ∀ c off scope d, i = .func c off scope d → b + off < info.names.length) → (∀ pc, ∀ op ∈ ops pc, ∀ b, op.block? = some b → b < info.names.length) →
    ∃ t, stepsText info b pc ops is = some t
  | [], pc, _, _ => ⟨_, rfl⟩
  | i :: is, pc, h, ho => by
    obtain ⟨t, ht⟩ := instrText_ok (h i (List.mem_cons_self ..))
    obtain ⟨ts, hts⟩ := stepsText_ok (is := is) (pc := pc + 1) (fun j hj => h j (List.mem_cons_of_mem _ hj)) ho
    obtain ⟨os, hos⟩ := mapM_ok (f := opText info) (xs := ops pc) fun op hop => opText_ok (ho pc op hop)
    rw [stepsText, hts, stepText, hos, lineText, ht]
    exact ⟨_, rfl⟩

/-- What is written for an instruction: the debug information, a line for each profile operation, and the line of the instruction. -/
def Step (info : Info) (b pc : Nat) (i : Instr) (ops : List POp) (t : Str) : Prop :=
  ∃ os l, ops.mapM (opText info) = some os ∧ lineText info b pc i = some l ∧ t = (info.debug b pc).flatMap debugText ++ os.flatten ++ l

theorem stepsText_steps {info : Info} {b : Nat} {ops : Nat → List POp} : ∀ {is : List Instr} {pc : Nat} {t : Str}, stepsText info b pc ops is = some t →
    ∃ ls : List Str, ls.length = is.length ∧ t = ls.flatten ∧ ∀ (k : Nat) i l, is[k]? = some i → ls[k]? = some l → Step info b (pc + k) i (ops (pc + k)) l
  | [], _, _, h => by
    rw [stepsText, Option.some.injEq] at h
    exact ⟨[], rfl, h.symm, by simp⟩
  | i :: is, pc, t, h => by
    rw [stepsText, Option.bind_eq_some_iff] at h
    obtain ⟨t1, h1, h2⟩ := h
    rw [Option.map_eq_some_iff] at h2
    obtain ⟨t2, h2, rfl⟩ := h2
    obtain ⟨ls, g1, rfl, g3⟩ := stepsText_steps h2
    refine ⟨t1 :: ls, by simp [g1], by simp, fun k j l hj hl => ?_⟩
    cases k with
    | zero =>
      simp at hj hl
      subst hj; subst hl
      simp only [stepText, Option.bind_eq_some_iff, Option.map_eq_some_iff] at h1
      obtain ⟨os, h3, l, hl, rfl⟩ := h1
      exact ⟨os, l, h3, hl, rfl⟩
    | succ k =>
      have := g3 k j l (by simpa using hj) (by simpa using hl)
      rw [show pc + 1 + k = pc + (k + 1) by omega] at this
      exact this

theorem mapM_at {α β : Type} {f : α → Option β} : {xs : List α} → {ys : List β} → xs.mapM f = some ys → ∀ {k : Nat} {x y}, xs[k]? = some x → ys[k]? = some y → f x = some y
  | [], _, _, k, x, y, hx, _ => by simp at hx
  | x :: xs, _, h, k, a, b, ha, hb => by
    simp only [List.mapM_cons, Option.bind_eq_bind, Option.bind_eq_some_iff, Option.pure_def, Option.some.injEq] at h
    obtain ⟨y, h1, ys, h2, rfl⟩ := h
    cases k with
    | zero => simp at ha hb; subst ha; subst hb; exact h1
    | succ k => exact mapM_at h2 (k := k) (by simpa using ha) (by simpa using hb)

/-- What is written for a function: its block, the numbers of its variables, where it is, and its instructions in order; control goes to instructions that are written. -/
structure Printed (info : Info) (b : Nat) (c : Code) (t : Str) : Prop where
  text : ∃ (n : Str × SrcLoc) (ls : List Str), info.names[b]? = some n ∧ ls.length = c.instrs.length ∧
    (∀ (pc : Nat) i l, c.instrs[pc]? = some i → ls[pc]? = some l → Step info b pc i (c.profile.getD pc []) l) ∧
    t = n.1 ++ word "[" ++ Gen.hexPad 4 b ++ word "]" ++ nl ++
      word "  args: " ++ dec c.numArgs ++ word ", statics: " ++ dec c.numStatics ++ word ", locals: " ++ dec c.numLocals ++ nl ++ word "  @ " ++ locText n.2 ++ nl ++ ls.flatten ++ nl ++ nl
  jumps : ∀ (pc : Nat) i, c.instrs[pc]? = some i → ∀ k ∈ i.succ pc, pc < k ∧ k < c.instrs.length

/-- The beginning of the output. -/
def Starts (h : Header) (t : Str) : Prop :=
  ∃ ds, t = word "Module: " ++ h.path ++ nl ++ word "Source: " ++ h.source ++ nl ++ nl ++ word "Dependencies:" ++ nl ++ ds ++ nl ∧ (h.deps = [] → ds = word "  (none)" ++ nl) ∧
    (h.deps ≠ [] → ds = (h.deps.map fun d => word "  " ++ d ++ nl).flatten)

theorem header_starts (h : Header) : Starts h (headerText h) := by
  refine ⟨(if h.deps = [] then word "  (none)" ++ nl else []) ++ h.deps.flatMap (fun d => word "  " ++ d ++ nl), by simp only [headerText, List.append_assoc], fun hd => ?_, fun hd => ?_⟩
  · simp [hd]
  · rw [if_neg hd, List.nil_append, List.flatMap_def]

/-- A line for each block, with its number, name and location. -/
def ListsBlocks (names : List (Str × SrcLoc)) (t : Str) : Prop :=
  ∃ ls : List Str, ls.length = names.length ∧ t = ls.flatten ∧
    ∀ (b : Nat) n, names[b]? = some n → ls[b]? = some (word "  [" ++ Gen.hexPad 4 b ++ word "] " ++ n.1 ++ word " " ++ locText n.2 ++ nl)

theorem blocks_listed : ∀ (ns : List (Str × SrcLoc)) (i : Nat), ∃ ls : List Str, ls.length = ns.length ∧ blocksText i ns = ls.flatten ∧
    ∀ (b : Nat) n, ns[b]? = some n → ls[b]? = some (word "  [" ++ Gen.hexPad 4 (i + b) ++ word "] " ++ n.1 ++ word " " ++ locText n.2 ++ nl)
  | [], i => ⟨[], rfl, rfl, by simp⟩
  | n :: ns, i => by
    obtain ⟨ls, h1, h2, h3⟩ := blocks_listed ns (i + 1)
    refine ⟨(word "  [" ++ Gen.hexPad 4 i ++ word "] " ++ n.1 ++ word " " ++ locText n.2 ++ nl) :: ls, by simp [h1], ?_, fun b m hb => ?_⟩
    · rw [blocksText, h2, show word " " = [ch ' '] by decide]
      simp
    · cases b with
      | zero => simp at hb; subst hb; rfl
      | succ b =>
        have := h3 b m (by simpa using hb)
        rw [show i + 1 + b = i + (b + 1) by omega] at this
        simpa using this

/-- C95: for every module that the compiler compiles fble-disassemble ends, without looking up a block that does not exist, and writes one thing: the header, what is written for the functions of the
module, one after the other, and the blocks.  The functions are those of the module, each of them once, with different blocks, and the function of the module comes first. -/
theorem C95_listing {nargs : Nat} {t : Tc} (ht : t.Scoped 0 nargs []) {code : Code} {n : Nat} (hc : compileModule nargs t = some (code, n)) (h : Header) {info : Info}
    (hn : info.names.length = n) : ∃ (fs : List (Nat × Code)) (ts : List Str) (out : Str), Disassembles h info code out ∧ (∀ out', Disassembles h info code out' → out' = out) ∧
      (∃ top bottom, Starts h top ∧ ListsBlocks info.names bottom ∧ out = top ++ ts.flatten ++ word "Profile Blocks:" ++ nl ++ bottom) ∧
      fs.length = ts.length ∧ (∀ (k : Nat) b c x, fs[k]? = some (b, c) → ts[k]? = some x → Printed info b c x) ∧
      fs.head? = some (0, code) ∧ (fs.map (·.1)).Nodup ∧ ∀ b c, (b, c) ∈ fs ↔ WithinAt code 0 c b := by
  obtain ⟨i1, _, i3, _⟩ := module_neat ht hc
  obtain ⟨code', n', hc', hin⟩ := C15_blocks ht
  rw [hc] at hc'
  cases hc'
  obtain ⟨fs, h1, h2⟩ := order_perm _ [(0, code)] (Nat.le_refl _)
  rw [show ([(0, code)] : List (Nat × Code)).flatMap (fun f => collectBlocks f.1 f.2) = collectBlocks 0 code by simp] at h2
  have hm : ∀ b c, (b, c) ∈ fs ↔ WithinAt code 0 c b := fun b c => by rw [h2.mem_iff, mem_blocks]
  have hwithin : ∀ {a b c d}, WithinAt a b c d → Within a c := fun h => by
    induction h with
    | here => exact .here
    | inner hm _ ih => exact .inner hm ih
  have htrans : ∀ {a b c d}, WithinAt a b c d → ∀ {e f}, WithinAt c d e f → WithinAt a b e f := fun h => by
    induction h with
    | here => exact fun h => h
    | inner hm _ ih => exact fun h => .inner hm (ih h)
  have hok : ∀ f ∈ fs, ∃ x, codeText info f = some x := by
    rintro ⟨b, c⟩ hf
    have hw := (hm b c).mp hf
    obtain ⟨hb, ho⟩ := hin c b hw
    rw [← hn] at hb ho
    obtain ⟨x1, e1⟩ := blockText_ok hb
    obtain ⟨x2, e2⟩ := stepsText_ok (info := info) (b := b) (ops := fun pc => c.profile.getD pc []) (is := c.instrs) (pc := 0) (fun i hi c' off scope d e => by
      subst e
      have := (hin c' (b + off) (htrans hw (.inner hi .here))).1
      omega) (fun pc op hop b' hb' => by
      have : ∃ ops ∈ c.profile, op ∈ ops := by
        simp only [List.getD_eq_getElem?_getD] at hop
        cases hq : c.profile[pc]? with
        | none => rw [hq] at hop; simp at hop
        | some ops => rw [hq] at hop; exact ⟨ops, List.mem_of_getElem? hq, hop⟩
      obtain ⟨ops, h1, h2⟩ := this
      have := ho ops h1 op h2 b' hb'
      omega)
    simp only [codeText, e1, e2, List.getElem?_eq_getElem hb]
    exact ⟨_, rfl⟩
  obtain ⟨ts, hts⟩ := mapM_ok hok
  have hd : Disassembles h info code (headerText h ++ ts.flatten ++ word "Profile Blocks:" ++ nl ++ blocksText 0 info.names) := ⟨_, fs, ts, h1, hts, rfl⟩
  refine ⟨fs, ts, _, hd, ?_, ⟨_, _, header_starts h, by simpa [ListsBlocks] using blocks_listed info.names 0, rfl⟩, ?_, ?_, ?_, ?_, hm⟩
  · rintro out' ⟨k, fs', ts', g1, g2, rfl⟩
    cases order_same h1 g1
    rw [hts] at g2
    cases g2
    rfl
  · exact (mapM_length hts).symm
  · intro k b c x hk hx
    have hw := (hm b c).mp (List.mem_of_getElem? hk)
    have hx' : codeText info (b, c) = some x := mapM_at hts hk hx
    simp only [codeText, blockText, Option.bind_eq_some_iff, Option.map_eq_some_iff] at hx'
    obtain ⟨t1, ⟨nm, e0, rfl⟩, nm', e1, is, e2, rfl⟩ := hx'
    rw [e0] at e1
    cases e1
    obtain ⟨ls, g1, rfl, g3⟩ := stepsText_steps e2
    refine ⟨⟨nm, ls, e0, g1, fun pc i l hi hl => by simpa using g3 pc i l hi hl, ?_⟩, fun pc i hi k hk' => ((i3 c (hwithin hw)).2 pc i hi).jumps k hk'⟩
    simp only [printLoc, show word "[" = [ch '['] by decide, show word "]" = [ch ']'] by decide, List.append_assoc, List.cons_append, List.nil_append]
  · cases hl : ([(0, code)].flatMap fun f : Nat × Code => collectBlocks f.1 f.2).length with
    | zero => rw [hl] at h1; simp [order] at h1
    | succ k =>
      rw [hl, order, Option.map_eq_some_iff] at h1
      obtain ⟨os, _, rfl⟩ := h1
      rfl
  · exact (h2.map _).nodup_iff.mpr i1.nodup

/-! ### Profile operations -/

/-- An operation of a function with block `base` makes this the current block, in place of the last one if it `replaces` that: interpret.c:80 and 84, c.c:324 and 329. -/
def Enters (base : Nat) (op : POp) (replaces : Bool) (b : Nat) : Prop := op = (if replaces then .replace (b - base) else .enter (b - base)) ∧ base ≤ b

/-- A line that says that this block is entered. -/
def SaysEnters (info : Info) (replaces : Bool) (b : Nat) (t : Str) : Prop :=
  ∃ n, info.names[b]? = some n ∧ t = word "    .  profile " ++ (if replaces then word "replace" else word "enter") ++ word " " ++ n.1 ++ word "[" ++ Gen.hexPad 4 b ++ word "];" ++
    word "  @ " ++ locText n.2 ++ nl

/-- C95: what is printed for an operation of the function of the module names the block that is entered. -/
theorem C95_profile {info : Info} {op : POp} {t : Str} {replaces : Bool} {b : Nat} (h : opText info op = some t) (hb : Enters 0 op replaces b) : SaysEnters info replaces b t := by
  cases replaces <;> obtain ⟨rfl, _⟩ := hb <;> simp only [opText, Nat.sub_zero, Option.bind_eq_some_iff, Option.map_eq_some_iff, blockText, if_true, Bool.false_eq_true, if_false] at h <;>
    obtain ⟨_, ⟨n, hn, rfl⟩, n', hn', rfl⟩ := h <;> rw [hn] at hn' <;> cases hn'
  · refine ⟨n, hn, ?_⟩
    simp only [printLoc, show word "[" = [ch '['] by decide, show word "];" = ch ']' :: word ";" by decide, show word "    .  profile enter " = word "    .  profile " ++ word "enter" ++ word " " by decide,
      List.append_assoc, List.cons_append, List.nil_append, Bool.false_eq_true, if_false]
  · refine ⟨n, hn, ?_⟩
    simp only [printLoc, show word "[" = [ch '['] by decide, show word "];" = ch ']' :: word ";" by decide, show word "    .  profile replace " = word "    .  profile " ++ word "replace" ++ word " " by decide,
      List.append_assoc, List.cons_append, List.nil_append, if_true]

/-- The expression `(a) { let x = type; x }`. -/
def lamLet : Tc := .func [] (.letE false (.cons .typeVal .nil) (.var (.loc 0)))

def lamInfo : Info where
  names := [(word "m", ⟨word "m.fble", 1, 1⟩), (word "m!", ⟨word "m.fble", 1, 5⟩), (word "m!.x", ⟨word "m.fble", 1, 9⟩)]
  loc := fun _ _ => ⟨word "m.fble", 1, 1⟩
  debug := fun _ _ => []

/-- C95 does not hold for the operations of other functions: the block is counted from the block of the function, and looked up as if it were counted from the first. -/
theorem C95_violated : ∃ code c op t, lamLet.Scoped 0 0 [] ∧ compileModule 0 lamLet = some (code, lamInfo.names.length) ∧ WithinAt code 0 c 1 ∧ (∃ ops ∈ c.profile, op ∈ ops) ∧
    opText lamInfo op = some t ∧ Enters 1 op false 2 ∧ SaysEnters lamInfo false 1 t ∧ ¬ SaysEnters lamInfo false 2 t := by
  have hc : compileModule 0 lamLet = some (.mk 0 0 1 [.func (.mk 1 0 1 [.type 0, .ret (.loc 0)] [[.enter 1, .sample 1, .exit, .sample 1], []]) 1 [] 0, .ret (.loc 0)] [[.sample 2], []], 3) := by
    have hm : merge ([] : List Var).length (.letE false (.cons .typeVal .nil) (.var (.loc 0))) = (1, .letE false (.cons .typeVal .nil) (.var (.loc 0))) := by rfl
    simp only [lamLet, compileModule, compile, compileFunc, compiles, compileDefs, hm, Option.bind_some, List.mapM_nil]
    rfl
  refine ⟨_, _, .enter 1, _, ?_, hc, .inner (List.mem_cons_self ..) .here, ⟨_, List.mem_cons_self .., List.mem_cons_self ..⟩, rfl, ⟨rfl, by decide⟩,
    C95_profile (op := .enter 1) rfl ⟨rfl, by decide⟩, ?_⟩
  · simp [lamLet, Tc.Scoped, Tcs.Scoped, Var.Ok, Tcs.length]
  · rintro ⟨n, hn, e⟩
    cases hn
    have := congrArg (fun s : Str => s[23]?) e
    revert this; decide

/-- C95 is about lines like these. -/
example : lineText lamInfo 1 7 (.select (.arg 0) 3 [⟨0, 9⟩, ⟨2, 12⟩] 15) = some (word "   7.  goto a0.?(0: 9, 2: 12, : 15 of 3);  @ m.fble:1:1" ++ nl) := by decide +kernel
example : (lineText lamInfo 0 0 (.func (.mk 1 2 1 [] []) 1 [.arg 3, .static 4] 0)).isSome := by decide

end Verif.Backend.Dis
