import Verif.Profile.Model
/-
What the profile should say, in terms of the sequence of operations only.
-/
namespace Verif.Profile

/-- One level of the call stack: the block running there, and every (caller, callee) call that
was made into this level: the call that created it, and those that replaced its block. -/
structure Level where
  cur : Nat
  edges : List (Nat × Nat)

/-- The call stack after some operations (newest first): the root block at the bottom. -/
def stackAfter : List Op → List Level
  | [] => [⟨0, []⟩]
  | op :: ops =>
    match op, stackAfter ops with
    | .enter b, l :: ls => ⟨b, [(l.cur, b)]⟩ :: l :: ls
    | .replace b, l :: ls => ⟨b, (l.cur, b) :: l.edges⟩ :: ls
    | .exit, _ :: ls => ls
    | _, ls => ls

/-- How many blocks there are. -/
def blocksAfter (n : Nat) : List Op → Nat
  | [] => n + 1
  | .addBlock :: ops => blocksAfter n ops + 1
  | _ :: ops => blocksAfter n ops

/-- The operations are well nested and name existing blocks. -/
def Legal (n : Nat) : List Op → Prop
  | [] => True
  | op :: ops => Legal n ops ∧
    match op with
    | .enter b => b < blocksAfter n ops
    | .replace b => b < blocksAfter n ops
    | .exit => 1 < (stackAfter ops).length
    | _ => True

/-- Sums `w` over the operations, given the stack at which each was made. -/
def tally (w : List Level → Op → Nat) : List Op → Nat
  | [] => 0
  | op :: ops => tally w ops + w (stackAfter ops) op

/-- The operation enters block `b`. -/
def Enters (b : Nat) (op : Op) : Prop := op = .enter b ∨ op = .replace b

instance (b : Nat) (op : Op) : Decidable (Enters b op) := by unfold Enters; infer_instance

/-- The running block. -/
def running (st : List Level) : Option Nat := st.head?.map (·.cur)

/-- The call is being made somewhere on the stack. -/
def OnStack (st : List Level) (e : Nat × Nat) : Prop := ∃ l ∈ st, e ∈ l.edges

/-- The block has been called somewhere on the stack. -/
def BlockOn (st : List Level) (b : Nat) : Prop := ∃ c, OnStack st (c, b)

/-- The time of a sample. -/
def sampled : Op → Nat
  | .sample t => t
  | _ => 0

open Classical in
/-- How often block `b` was entered. -/
noncomputable def entries (b : Nat) : List Op → Nat := tally fun _ op => if Enters b op then 1 else 0

open Classical in
/-- How often `b` was entered from `c`. -/
noncomputable def callsMade (c b : Nat) : List Op → Nat :=
  tally fun st op => if Enters b op ∧ running st = some c then 1 else 0

open Classical in
/-- The time sampled while `b` was running. -/
noncomputable def selfTime (b : Nat) : List Op → Nat :=
  tally fun st op => if running st = some b then sampled op else 0

open Classical in
/-- The time sampled while `b` was anywhere on the stack. -/
noncomputable def blockTime (b : Nat) : List Op → Nat :=
  tally fun st op => if BlockOn st b then sampled op else 0

open Classical in
/-- The time sampled while the call from `c` to `b` was anywhere on the stack. -/
noncomputable def callTime (c b : Nat) : List Op → Nat :=
  tally fun st op => if OnStack st (c, b) then sampled op else 0

/-- All the time sampled. -/
noncomputable def allTime : List Op → Nat := tally fun _ op => sampled op

/-- The record the profile has for a caller and a callee: what the report prints. -/
def recorded (s : St) (c b : Nat) : Option Data :=
  ((s.callees c).map s.data).find? (·.id == b)

/-- A block of a linked program: that of its main function, or one of a module. -/
def Linked.Has (k : Linked) (b : Nat) : Prop :=
  b = k.main ∨ ∃ r ∈ k.ranges, r.1 ≤ b ∧ b < r.1 + r.2

/-- A run of a linked program enters no other block. -/
def RunOf (k : Linked) (ops : List Op) : Prop := ∀ op ∈ ops, ∀ b, Enters b op → k.Has b

end Verif.Profile
