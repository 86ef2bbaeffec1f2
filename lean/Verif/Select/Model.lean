/-
Model of union select branch search:
 - the interpreter's binary search, /repo/lib/interpret.c:157-188
 - the decision tree emitted by the aarch64 backend, /repo/lib/aarch64.c:85-115, 506-590, 680-702
 - the switch statement emitted by the C backend, /repo/lib/c.c:400-420
-/
namespace Verif.Select

/-- code.h `FbleBranchTarget`: tag and target pc. -/
structure Branch where
  tag : Nat
  target : Nat
deriving Repr, DecidableEq

/-- interpret.c:170-184: the loop with bounds `lo`, `hi`; `target` starts as the default and is
replaced when the tag is found.  Reading past the table is `none` (out of bounds). -/
def searchLoop (targets : List Branch) (default tag lo hi : Nat) : Option Nat :=
  if _h : lo < hi then
    let mid := (lo + hi) / 2
    match targets[mid]? with
    | none => none
    | some b =>
      if tag = b.tag then some b.target
      else if tag < b.tag then searchLoop targets default tag lo mid
      else searchLoop targets default tag (mid + 1) hi
  else some default
termination_by hi - lo
decreasing_by all_goals omega

/-- Outcome of the instruction. -/
inductive Outcome where
  /-- execution continues at this pc -/
  | goto (pc : Nat)
  /-- "undefined union value select": abort -/
  | abort
  /-- memory error or failed assertion -/
  | crash
deriving Repr, DecidableEq

/-- interpret.c:157-188 given the result of `FbleUnionValueTag` (`none` for -1), with the assertion
at line 168 that the table is not empty. -/
def interpSelect (targets : List Branch) (default : Nat) : Option Nat → Outcome
  | none => .abort
  | some tag =>
    if targets = [] then .crash
    else match searchLoop targets default tag 0 targets.length with
    | some t => .goto t
    | none => .crash

/-- c.c:400-420: a C `switch` with `case -1`, one case per table entry and a default.  Duplicate
case labels are a compile time error. -/
def cSwitch (targets : List Branch) (default : Nat) : Option Nat → Outcome
  | none => .abort
  | some tag =>
    match targets.find? (fun b => b.tag == tag) with
    | some b => .goto b.target
    | none => .goto default

/-! ### aarch64 -/

/-- The instructions emitted for a select. Branches to a pc label `.Lr.<func>.<pc>` leave the
fragment; branches to `.Lr.<func>.<pc>.<n>` stay inside it. -/
inductive Asm where
  | b (pc : Nat)
  | cmp (imm : Nat)
  | beq (pc : Nat)
  | bcc (pc : Nat)
  | bccLocal (label : Nat)
  | label (label : Nat)
deriving Repr, DecidableEq

/-- aarch64.c:506-519 `GetSingleTarget`: `none` is NONE. -/
def singleTarget (lo hi : Nat) (targets : List Branch) (default : Nat) : Option Nat :=
  match targets with
  | [] => some default
  | [b] => if lo = hi then some b.target else none
  | _ => none

/-- aarch64.c:528-591 `EmitSearch`. `label` is `context->label`; returns the code and the next
label.  The table accesses are in range because there is at least one target. -/
def emitSearch (lo hi : Nat) (targets : List Branch) (default : Nat) (label : Nat) :
    List Asm × Nat :=
  match singleTarget lo hi targets default with
  | some t => ([.b t], label)
  | none =>
    if hne : targets.length = 0 then ([], label) else
    let mid := targets.length / 2
    let m := targets[mid]'(by omega)
    let low := targets.take mid
    let high := targets.drop (mid + 1)
    let head := [Asm.cmp m.tag, .beq m.target]
    if lo = m.tag then
      let (c, l) := emitSearch (m.tag + 1) hi high default label
      (head ++ c, l)
    else if m.tag = hi then
      let (c, l) := emitSearch lo (m.tag - 1) low default label
      (head ++ c, l)
    else
      match singleTarget lo (m.tag - 1) low default with
      | some t =>
        let (c, l) := emitSearch (m.tag + 1) hi high default label
        (head ++ [.bcc t] ++ c, l)
      | none =>
        let (c, l) := emitSearch (m.tag + 1) hi high default (label + 1)
        let (c', l') := emitSearch lo (m.tag - 1) low default l
        (head ++ [.bccLocal label] ++ c ++ [.label label] ++ c', l')
termination_by targets.length
decreasing_by
  all_goals simp only [List.length_drop, List.length_take]
  all_goals omega

/-- aarch64.c:680-702: the whole fragment for a select (the undefined check comes before). -/
def emitSelect (numTags : Nat) (targets : List Branch) (default : Nat) : List Asm :=
  (emitSearch 0 (numTags - 1) targets default 0).1

/-- Code starting at the definition of a local label, searching forward. -/
def seek (l : Nat) : List Asm → Option (List Asm)
  | [] => none
  | .label l' :: rest => if l = l' then some rest else seek l rest
  | _ :: rest => seek l rest

theorem seek_length {l : Nat} : ∀ {c r : List Asm}, seek l c = some r → r.length < c.length + 1
  | [], r, h => by simp [seek] at h
  | i :: rest, r, h => by
    cases i with
    | label l' =>
      simp only [seek] at h
      split at h
      · cases h; simp; omega
      · have := seek_length h; simp; omega
    | _ => simp only [seek] at h; have := seek_length h; simp; omega

/-- Execution of the fragment: register x0 holds the tag, `flags` the immediate of the last
`cmp x0, imm`.  The result is the pc label branched to; `none` if control falls off the end, a
flag is used before any comparison, or a label is missing. -/
def exec (x0 : Nat) (flags : Option Nat) : List Asm → Option Nat
  | [] => none
  | .b t :: _ => some t
  | .cmp k :: rest => exec x0 (some k) rest
  | .beq t :: rest =>
    match flags with
    | none => none
    | some k => if x0 = k then some t else exec x0 flags rest
  | .bcc t :: rest =>
    match flags with
    | none => none
    | some k => if x0 < k then some t else exec x0 flags rest
  | .bccLocal l :: rest =>
    match flags with
    | none => none
    | some k =>
      if x0 < k then
        match _h : seek l rest with
        | some r => exec x0 flags r
        | none => none
      else exec x0 flags rest
  | .label _ :: rest => exec x0 flags rest
termination_by c => c.length
decreasing_by
  all_goals simp only [List.length_cons]
  all_goals first
    | (have := seek_length (by assumption); omega)
    | omega

/-- Labels defined in a fragment. -/
def labels : List Asm → List Nat
  | [] => []
  | .label l :: rest => l :: labels rest
  | _ :: rest => labels rest

/-! ### Specification -/

/-- The plain reading of a branch table: the branch listed for the tag, else the default. -/
inductive Selects (targets : List Branch) (default tag : Nat) : Nat → Prop where
  | listed {b} : b ∈ targets → b.tag = tag → Selects targets default tag b.target
  | default : (∀ b ∈ targets, b.tag ≠ tag) → Selects targets default tag default

/-- Tables are sorted by tag without duplicates (established by elaboration, see C17). -/
def Sorted (targets : List Branch) : Prop := targets.Pairwise (fun a b => a.tag < b.tag)

end Verif.Select
