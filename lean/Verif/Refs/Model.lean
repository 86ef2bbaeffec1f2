import Verif.Pack.Heap
/-
Model of reference values: FbleNewRefValue, FbleAssignRefValue (/repo/lib/value.c:1777-1807) and
StrictValue (value.c:847-854; `Pack.Strict`).  Words, heaps and objects as in Verif.Pack.
-/
namespace Verif.Refs
open Verif.Pack

/-- The unwrap loop value.c:1792-1796: `Unwrap h v u` says it stops at `u` when started at `v`.
It stops at packed values, non references and references without a value. -/
inductive Unwrap (h : Heap) : Word → Word → Prop where
  | packed {v} : isPacked v = true → Unwrap h v v
  | obj {v o} : isPacked v = false → h v = some o → (∀ r, o ≠ .ref r) → Unwrap h v v
  | unassigned {v} : isPacked v = false → h v = some (.ref none) → Unwrap h v v
  | step {v w u} : isPacked v = false → h v = some (.ref (some w)) → Unwrap h w u → Unwrap h v u

/-- `FbleAssignRefValue(ref, value)` value.c:1785-1807: returns false and changes nothing, or
returns true having stored the unwrapped value.  `GcRealloc` (which may copy a stack allocated
object to a collected one) is the identity here. -/
inductive Assign (h : Heap) (ref value : Word) : Bool → Heap → Prop where
  | vacuous : Unwrap h value ref → Assign h ref value false h
  | ok {u} : Unwrap h value u → u ≠ ref → isPacked ref = false → (∃ r, h ref = some (.ref r)) →
      Assign h ref value true (h.set ref (.ref (some u)))

/-- A word a client may hold: packed, or the address of an allocated object. -/
def Valid (h : Heap) (w : Word) : Prop := isPacked w = true ∨ ∃ o, isPacked w = false ∧ h w = some o

/-- Histories of the heap: allocations of anything (references start without a value,
value.c:1777-1782) and successful assignments. -/
inductive Hist : Heap → Prop where
  | empty : Hist (fun _ => none)
  | alloc {h a o} : Hist h → Fresh h a → (∀ r, o ≠ .ref (some r)) → Hist (h.set a o)
  | assign {h ref v h'} : Hist h → Valid h v → Assign h ref v true h' → Hist h'

/-- Specification: `v` leads to `w` through assigned references. -/
inductive Leads (h : Heap) : Word → Word → Prop where
  | refl {v} : Leads h v v
  | step {v u w} : isPacked v = false → h v = some (.ref (some u)) → Leads h u w → Leads h v w

end Verif.Refs
