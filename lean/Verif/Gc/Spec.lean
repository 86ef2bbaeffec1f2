import Verif.Gc.Model
/-
What a client of the value heap may do and what it may rely on, without reference to the
collector.
-/
namespace Verif.Gc

/-- The client's view: the heap, the values it was handed in each frame that is still on the stack
(`roots d`, for depth `d`), and the references it created in each frame since that frame was last
compacted. -/
structure Sys where
  heap : Heap
  roots : Nat → List Val
  refs : Nat → List Addr

/-- `w` is stored in a field of `v`. -/
def HasField (h : Heap) (v w : Val) : Prop :=
  match v with
  | .gc a => w ∈ h.fields a
  | .stk s => w ∈ h.sfields s
  | _ => False

/-- The values the client may use: packed values, those it was handed in a frame that is still on the stack, and
everything that can be reached from them through fields. -/
inductive Entitled (s : Sys) : Val → Prop where
  | packed {n} : Entitled s (.imm n)
  | handed {d v} : d ≤ s.heap.top → v ∈ s.roots d → Entitled s v
  | field {v w} : Entitled s v → HasField s.heap v w → Entitled s w

/-- The memory of a value has not been reclaimed. -/
def Usable (h : Heap) : Val → Prop
  | .imm _ => True
  | .gc a => h.alive a = true
  | .stk s => h.salive s = true
  | .uninit => False

/-- Heap operations. -/
inductive Op where
  | new (label : Nat) (fs : List Val)      -- struct, union, function values
  | newRef (label : Nat)                   -- reference or native value
  | assign (r : Addr) (v : Val)
  | push (merge : Bool)
  | pop (v : Val)
  | compact (merge : Bool) (vs : List Val)
  | gc                                     -- one step of FbleValueFullGc
deriving DecidableEq

/-- The effect of an operation on the heap and on what the client holds. -/
def step (s : Sys) : Op → Sys
  | .new label fs =>
    { s with heap := newValue s.heap label fs,
             roots := upd s.roots s.heap.top (.stk s.heap.nextS :: s.roots s.heap.top) }
  | .newRef label =>
    let h := newRef s.heap label
    { heap := h, roots := upd s.roots h.top (.gc (h.nextA - 1) :: s.roots h.top),
      refs := upd s.refs h.top ((h.nextA - 1) :: s.refs h.top) }
  | .assign r v => { s with heap := assignRef s.heap r v }
  | .push merge =>
    if merge then { s with heap := pushFrame s.heap true }
    else { heap := pushFrame s.heap false, roots := upd s.roots (s.heap.top + 1) [],
           refs := upd s.refs (s.heap.top + 1) [] }
  | .pop v =>
    if s.heap.merges s.heap.top > 0 then { s with heap := (popFrame s.heap v).1 }
    else
      { s with heap := (popFrame s.heap v).1,
               roots := upd s.roots (s.heap.top - 1)
                 ((popFrame s.heap v).2 :: s.roots (s.heap.top - 1)) }
  | .compact merge vs =>
    if merge then s
    else if s.heap.merges s.heap.top > 0 then
      { heap := (compactFrame s.heap false vs).1, roots := upd s.roots (s.heap.top + 1) [],
        refs := upd s.refs (s.heap.top + 1) [] }
    else
      { heap := (compactFrame s.heap false vs).1,
        roots := upd s.roots s.heap.top (compactFrame s.heap false vs).2,
        refs := upd s.refs s.heap.top [] }
  | .gc => { s with heap := incrGc s.heap }

/-- What the documentation of the API asks of the client: it passes only values it is entitled to,
assigns only references it created in the current frame, and does not pop or compact the base
frame. -/
def Legal (s : Sys) : Op → Prop
  | .new _ fs => ∀ v ∈ fs, Entitled s v
  | .newRef _ => True
  | .assign r v => r ∈ s.refs s.heap.top ∧ Entitled s v
  | .push _ => True
  | .pop v => Entitled s v ∧ (s.heap.merges s.heap.top = 0 → 0 < s.heap.top)
  | .compact _ vs => (∀ v ∈ vs, Entitled s v) ∧ (s.heap.merges s.heap.top = 0 → 0 < s.heap.top)
  | .gc => True

/-- A new heap. -/
def start : Sys := ⟨initial, fun _ => [], fun _ => []⟩

/-- Histories of legal operations on a new heap that never do `bad`. -/
inductive History (bad : Sys → Op → Prop) : Sys → Prop where
  | start : History bad start
  | step {s} (op : Op) : History bad s → Legal s op → ¬ bad s op → History bad (step s op)

/-- The operation pops a frame that the collector is in the middle of marking, and returns a value
that does not belong to that frame (a packed value, or one from an older frame). -/
def PopsMarkingFrame (s : Sys) : Op → Prop
  | .pop v => s.heap.merges s.heap.top = 0 ∧ (realloc s.heap v).1.gcFrame = s.heap.top ∧
      (realloc s.heap v).1.lists .gcMarked ≠ [] ∧
      youngFrom (realloc s.heap v).1 (s.heap.minGen s.heap.top) (realloc s.heap v).2 = false
  | _ => False

end Verif.Gc
