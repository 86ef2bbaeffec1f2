import Verif.TypeHeap.Model
/-
What a user of the type heap relies on, in terms of what the user did: C25.
-/
namespace Verif.TypeHeap

inductive Op where
  | alloc
  | retain (o : Obj)
  | release (o : Obj)
  | store (src dst : Obj)
  | full (fuel : Nat)

/-- One operation. A full collection that needs more steps than given is not finished. -/
def step (h : Heap) : Op → Heap
  | .alloc => allocType h
  | .retain o => retainType h o
  | .release o => releaseType h o
  | .store a b => storeRef h a b
  | .full n => (fullGc n h).getD h

/-- The heap after a history, newest operation first. -/
def run : List Op → Heap
  | [] => newHeap
  | op :: ops => step (run ops) op

/-! The types are numbered in the order of their allocation. -/

/-- How many types were allocated. -/
def allocs : List Op → Nat
  | [] => 0
  | .alloc :: ops => allocs ops + 1
  | _ :: ops => allocs ops

/-- How often the user holds on to a type: one for the allocation, one more for each retain, one less
for each release. -/
def holds (o : Obj) : List Op → Nat
  | [] => 0
  | .alloc :: ops => if allocs ops = o then 1 else holds o ops
  | .retain p :: ops => if p = o then holds o ops + 1 else holds o ops
  | .release p :: ops => if p = o then holds o ops - 1 else holds o ops
  | _ :: ops => holds o ops

/-- The references the user stored. -/
def Stored (a b : Obj) (ops : List Op) : Prop := .store a b ∈ ops

/-- The types that may still be used: those held on to and everything they refer to. -/
inductive Needed (ops : List Op) : Obj → Prop where
  | held {o} : 0 < holds o ops → Needed ops o
  | ref {a b} : Needed ops a → Stored a b ops → Needed ops b

/-- The histories allowed: the user only touches types that are needed, and releases only what is
held. -/
def Legal : List Op → Prop
  | [] => True
  | .alloc :: ops => Legal ops
  | .retain o :: ops => Legal ops ∧ Needed ops o
  | .release o :: ops => Legal ops ∧ 0 < holds o ops
  | .store a b :: ops => Legal ops ∧ Needed ops a ∧ Needed ops b
  | .full _ :: ops => Legal ops

end Verif.TypeHeap
