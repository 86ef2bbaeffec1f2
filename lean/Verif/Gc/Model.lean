/-
Model of the value heap of /repo/lib/value.c: stack frames, stack allocated values, GC allocated
values and the incremental, generational garbage collector.

Modelling decisions (simplifications are marked SIMPLIFIED):
* The intrusive circular lists (value.c:122-129, 525-592) are lists of object identities, head
  first, indexed by which list they are.
* A frame is named by its depth on the stack (0 is the base frame), so `caller` is depth - 1 and
  the frame found at `((Frame*)frame->top) - 1` (value.c:965) is depth + 1: PushFrame
  (value.c:1059) places the callee's Frame record at the very top of its caller's allocation, and
  the caller allocates nothing while the callee exists.
* SIMPLIFIED: object identities are never reused.  (malloc reuses addresses; since the theorems
  show no freed object is ever touched, an address stands for one object while it is in use.)
* SIMPLIFIED: generations are unbounded numbers (the code asserts they do not overflow).
* SIMPLIFIED: packed words, NULL and everything else that is not an object pointer is `Val.imm`.
* Executing anything undefined (touching a freed object, reading the GC header of a stack
  allocated object, following a field that was not initialised yet) sets the flag `ub`.
-/
namespace Verif.Gc

/-- Identity of a GC allocated object. -/
abbrev Addr := Nat

/-- The content of an `FbleValue*`: packed or NULL, a GC allocated object, a stack allocated
object, or memory that was not initialised. -/
inductive Val where
  | imm (n : Nat)
  | gc (a : Addr)
  | stk (s : Nat)
  | uninit
deriving DecidableEq, Repr

/-- The lists of objects: three per frame (struct Frame, value.c:403-418) and three in the
collector (struct Gc, value.c:454-470). -/
inductive LId where
  | alloced (d : Nat)
  | marked (d : Nat)
  | unmarked (d : Nat)
  | gcMarked
  | gcUnmarked
  | gcFree
deriving DecidableEq, Repr

/-- The heap: struct FbleValueHeap, Frame, Gc, GcHeader and StackHeader (value.c:142-175, 403-486).
`label` is everything in an object besides its fields (kind of value, union tag, executable). -/
structure Heap where
  label : Addr → Nat
  fields : Addr → List Val
  gen : Addr → Nat
  alive : Addr → Bool
  nextA : Addr
  lists : LId → List Addr
  top : Nat
  merges : Nat → Nat
  minGen : Nat → Nat
  genF : Nat → Nat
  maxGen : Nat → Nat
  gcGen : Nat
  gcMin : Nat
  gcMax : Nat
  gcFrame : Nat
  gcNext : Option Nat
  interrupted : Bool
  save : List Addr
  slabel : Nat → Nat
  sfields : Nat → List Val
  sframe : Nat → Nat
  sgc : Nat → Option Addr
  salive : Nat → Bool
  nextS : Nat
  freed : List Addr
  ub : Bool

/-- Function update. -/
def upd {α β : Type} [DecidableEq α] (f : α → β) (a : α) (b : β) : α → β :=
  fun x => if x = a then b else f x

/-- Touching the memory of a GC object: undefined if it was freed. -/
def touch (h : Heap) (a : Addr) : Heap := { h with ub := h.ub || !h.alive a }

/-- MoveTo, value.c:560-568: unlinks the value from the list it is on and puts it at the head of
`dst`. -/
def moveTo (h : Heap) (dst : LId) (a : Addr) : Heap :=
  { touch h a with
    lists := fun l => if l = dst then a :: (h.lists l).filter (· != a)
                      else (h.lists l).filter (· != a) }

/-- MoveAllTo, value.c:577-587: all of `src`, in order, goes to the front of `dst`. -/
def moveAll (h : Heap) (dst src : LId) : Heap :=
  { h with lists := upd (upd h.lists dst (h.lists src ++ h.lists dst)) src [] }

/-- `FreeGcValue(Get(&gc->free))`, value.c:543-552, 682-693, 931-932. -/
def freeOne (h : Heap) : Heap :=
  match h.lists .gcFree with
  | [] => h
  | a :: t => { touch h a with lists := upd h.lists .gcFree t, alive := upd h.alive a false,
                               freed := a :: h.freed }

/-- MarkRef, value.c:866-873. -/
def markRef (h : Heap) : Val → Heap
  | .imm _ => h
  | .gc a =>
    let h := touch h a
    if h.gcMin ≤ h.gen a ∧ h.gen a ≠ h.gcGen then moveTo h .gcMarked a else h
  | .stk _ => { h with ub := true }
  | .uninit => { h with ub := true }

/-- MarkRefs, value.c:882-919: MarkRef on each field in order. -/
def markRefs (h : Heap) (vs : List Val) : Heap := vs.foldl markRef h

/-- Removing the head of `gc.marked`, value.c:935, 543-552. -/
def getMarked (h : Heap) (t : List Addr) : Heap := { h with lists := upd h.lists .gcMarked t }

/-- Traversing one marked object, value.c:936-948. -/
def traverse (h : Heap) (a : Addr) (t : List Addr) : Heap :=
  let h := touch (getMarked h t) a
  let h := { h with gen := upd h.gen a h.gcGen }
  let h := markRefs h (h.fields a)
  moveTo h (if h.interrupted then .unmarked h.gcFrame else .alloced h.gcFrame) a

/-- `MoveTo(&gc->frame->marked, save[i])` for all saved values, value.c:955-957. -/
def resurrect (h : Heap) : Heap := h.save.foldl (fun h a => moveTo h (.marked h.gcFrame) a) h

/-- Setting up the next collection, value.c:960-976. -/
def startCycle (h : Heap) (n : Nat) : Heap :=
  let h := { h with gcFrame := n, gcNext := if n = h.top then none else some (n + 1),
                    gcMin := h.minGen n, gcGen := h.genF n, gcMax := h.maxGen n }
  let h := moveAll h .gcMarked (.marked n)
  let h := moveAll h .gcUnmarked (.unmarked n)
  { h with interrupted := false, save := [] }

/-- The part of IncrGc after no marked object is left, value.c:951-976. -/
def endCycle (h : Heap) : Heap :=
  let h := moveAll h .gcFree .gcUnmarked
  let h := resurrect h
  match h.gcNext with
  | none => h
  | some n => startCycle h n

/-- IncrGc, value.c:927-977. -/
def incrGc (h : Heap) : Heap :=
  let h := freeOne (freeOne h)
  match h.lists .gcMarked with
  | a :: t => traverse h a t
  | [] => endCycle h

/-- The part of NewGcValueRaw after IncrGc, value.c:664-671, together with the initial content of
the fields. -/
def allocGc (h : Heap) (d : Nat) (label : Nat) (fs : List Val) : Heap :=
  { h with label := upd h.label h.nextA label, fields := upd h.fields h.nextA fs,
           gen := upd h.gen h.nextA (h.genF d), alive := upd h.alive h.nextA true,
           nextA := h.nextA + 1,
           lists := upd h.lists (.alloced d) (h.nextA :: h.lists (.alloced d)) }

/-- NewGcValueRaw, value.c:660-672.  The new object is `(incrGc h).nextA`. -/
def newGc (h : Heap) (d : Nat) (label : Nat) (fs : List Val) : Heap := allocGc (incrGc h) d label fs

/-- Storing to a field of a GC object. -/
def setField (h : Heap) (a : Addr) (i : Nat) (v : Val) : Heap :=
  { touch h a with fields := upd h.fields a ((h.fields a).set i v) }

/-- The loop `nv->fields[i] = GcRealloc(heap, sv->fields[i])`, value.c:728-730 (735-740 and
752-754 alike). -/
def reallocFields (rec : Heap → Val → Heap × Val) (a : Addr) : Nat → List Val → Heap → Heap
  | _, [], h => h
  | i, f :: fs, h => reallocFields rec a (i + 1) fs (setField (rec h f).1 a i (rec h f).2)

/-- GcRealloc, value.c:704-768.  The recursion is over the stack allocated objects, which refer
only to objects allocated before them; `fuel` bounds its depth, and running out sets `ub`, so the
theorems show that it does not. -/
def gcRealloc : Nat → Heap → Val → Heap × Val
  | _, h, .imm n => (h, .imm n)
  | _, h, .gc a => (touch h a, .gc a)
  | _, h, .uninit => ({ h with ub := true }, .uninit)
  | 0, h, .stk s => ({ h with ub := true }, .stk s)
  | fuel + 1, h, .stk s =>
    let h := { h with ub := h.ub || !h.salive s }
    match h.sgc s with
    | some a => (h, .gc a)
    | none =>
      let h1 := newGc h (h.sframe s) (h.slabel s) ((h.sfields s).map fun _ => .uninit)
      let a := h1.nextA - 1
      let h2 := { h1 with sgc := upd h1.sgc s (some a) }
      (reallocFields (gcRealloc fuel) a 0 (h2.sfields s) h2, .gc a)

/-- GcRealloc with enough fuel for any stack object. -/
def realloc (h : Heap) (v : Val) : Heap × Val := gcRealloc h.nextS h v

/-- FbleNewValueHeap, value.c:980-1018. -/
def initial : Heap where
  label := fun _ => 0
  fields := fun _ => []
  gen := fun _ => 0
  alive := fun _ => false
  nextA := 0
  lists := fun _ => []
  top := 0
  merges := fun _ => 0
  minGen := fun _ => 0
  genF := fun _ => 0
  maxGen := fun _ => 1
  gcGen := 0
  gcMin := 0
  gcMax := 1
  gcFrame := 0
  gcNext := none
  interrupted := false
  save := []
  slabel := fun _ => 0
  sfields := fun _ => []
  sframe := fun _ => 0
  sgc := fun _ => none
  salive := fun _ => false
  nextS := 0
  freed := []
  ub := false

/-- NewValueRaw and the field stores of FbleNewStructValue, FbleNewUnionValue, FbleNewFuncValue
(value.c:628-636, 1269-1275, 1361-1365, 1709-1718): a value allocated to the top frame. -/
def newValue (h : Heap) (label : Nat) (fs : List Val) : Heap :=
  { h with slabel := upd h.slabel h.nextS label, sfields := upd h.sfields h.nextS fs,
           sframe := upd h.sframe h.nextS h.top, sgc := upd h.sgc h.nextS none,
           salive := upd h.salive h.nextS true, nextS := h.nextS + 1 }

/-- FbleNewRefValue (value.c:1777-1782) and FbleNewNativeValue (value.c:1810-1817): a GC object on
the top frame, whose fields are not pointers to objects (a reference starts as NULL). -/
def newRef (h : Heap) (label : Nat) : Heap := newGc h h.top label [.imm 0]

/-- The store of FbleAssignRefValue, value.c:1802-1805.  SIMPLIFIED: `v` is the value after the
references have been unwrapped (value.c:1792-1796, modelled in Verif.Refs), which is again a value
the caller is entitled to. -/
def assignRef (h : Heap) (r : Addr) (v : Val) : Heap :=
  let p := realloc h v
  setField p.1 r 0 p.2

/-- PushFrame, value.c:1051-1077. -/
def pushFrame (h : Heap) (merge : Bool) : Heap :=
  if merge then { h with merges := upd h.merges h.top (h.merges h.top + 1) }
  else
    let t := h.top + 1
    { h with top := t, merges := upd h.merges t 0,
             minGen := upd h.minGen t (h.maxGen h.top), genF := upd h.genF t (h.maxGen h.top),
             maxGen := upd h.maxGen t (h.maxGen h.top + 1),
             lists := fun l => if l = .alloced t ∨ l = .marked t ∨ l = .unmarked t then []
                               else h.lists l }

/-- `IsAlloced(value) && value->h.gc.gen >= m`. -/
def youngFrom (h : Heap) (m : Nat) : Val → Bool
  | .gc a => m ≤ h.gen a
  | _ => false

/-- `IsAlloced(value) && gen >= gc.min_gen && gen != gc.gen && gen < gc.max_gen`,
value.c:1110-1113, 1206-1209. -/
def inGcRange (h : Heap) : Val → Bool
  | .gc a => h.gcMin ≤ h.gen a && h.gen a != h.gcGen && h.gen a < h.gcMax
  | _ => false

/-- Moving a value that is a GC object. -/
def moveVal (h : Heap) (dst : LId) : Val → Heap
  | .gc a => moveTo h dst a
  | _ => h

/-- Keep the addresses. -/
def addrsOf : List Val → List Addr
  | [] => []
  | .gc a :: vs => a :: addrsOf vs
  | _ :: vs => addrsOf vs

/-- FblePopFrame after the value was reallocated, value.c:1096-1137.  The stack allocated values of
the frame are gone. -/
def popLists (h : Heap) (v : Val) : Heap :=
  let t := h.top
  let c := t - 1
  let h := { h with top := c, salive := fun s => h.salive s && h.sframe s != t }
  let h := moveAll h (.unmarked c) (.unmarked t)
  let h := moveAll h (.unmarked c) (.marked t)
  let h := moveAll h (.unmarked c) (.alloced t)
  let h := if youngFrom h (h.minGen t) v then
      moveVal { h with maxGen := upd h.maxGen c (h.maxGen t) } (.marked c) v
    else h
  let h := if h.gcFrame = t then
      let h := { h with interrupted := true, gcFrame := c }
      if inGcRange h v then { moveVal h .gcMarked v with save := addrsOf [v] }
      else { h with save := [] }
    else h
  if h.gcNext = none ∨ h.gcNext = some t then { h with gcNext := some c } else h

/-- FblePopFrame, value.c:1086-1138. -/
def popFrame (h : Heap) (v : Val) : Heap × Val :=
  if h.merges h.top > 0 then
    ({ h with merges := upd h.merges h.top (h.merges h.top - 1) }, v)
  else
    let p := realloc h v
    (popLists p.1 p.2, p.2)

/-- Reallocating the saved values, value.c:1171-1173. -/
def reallocAll : Heap → List Val → Heap × List Val
  | h, [] => (h, [])
  | h, v :: vs =>
    let p := realloc h v
    let q := reallocAll p.1 vs
    (q.1, p.2 :: q.2)

/-- CompactFrame after the saved values were reallocated, value.c:1175-1225. -/
def compactLists (h : Heap) (vs : List Val) : Heap :=
  let t := h.top
  let h := { h with genF := upd h.genF t (h.maxGen t), maxGen := upd h.maxGen t (h.maxGen t + 1),
                    salive := fun s => h.salive s && h.sframe s != t }
  let h := moveAll h (.unmarked t) (.marked t)
  let h := moveAll h (.unmarked t) (.alloced t)
  let h := vs.foldl (fun h v => if youngFrom h (h.minGen t) v then moveVal h (.marked t) v else h) h
  let h := if h.gcFrame = t then
      let h := { h with interrupted := true }
      let keep := vs.filter (inGcRange h)
      { keep.foldl (fun h v => moveVal h .gcMarked v) h with save := addrsOf keep }
    else h
  if h.gcNext = none then { h with gcNext := some t } else h

/-- CompactFrame, value.c:1155-1227.  Returns the updated save array. -/
def compactFrame (h : Heap) (merge : Bool) (vs : List Val) : Heap × List Val :=
  if merge then (h, vs)
  else if h.merges h.top > 0 then
    (pushFrame { h with merges := upd h.merges h.top (h.merges h.top - 1) } false, vs)
  else
    let p := reallocAll h vs
    (compactLists p.1 p.2, p.2)

/-- The condition on which the loop of FbleValueFullGc stops, value.c:1829-1831. -/
def fullGcDone (h : Heap) : Bool :=
  h.gcNext.isNone && (h.lists (.marked h.gcFrame)).isEmpty && (h.lists (.unmarked h.gcFrame)).isEmpty

/-- The lists freed by FbleFreeValueHeap, value.c:1021-1047, in the order they are collected:
MoveAllTo puts the newest batch first. -/
def frameLists (h : Heap) : Nat → List Addr
  | 0 => h.lists (.alloced 0) ++ h.lists (.marked 0) ++ h.lists (.unmarked 0)
  | d + 1 => frameLists h d ++
      (h.lists (.alloced (d+1)) ++ h.lists (.marked (d+1)) ++ h.lists (.unmarked (d+1)))

/-- Everything FbleFreeValueHeap frees: the frames' lists from the top frame down, then the
collector's lists, value.c:1021-1047. -/
def freeHeap (h : Heap) : List Addr :=
  h.lists .gcUnmarked ++ h.lists .gcMarked ++ h.lists .gcFree ++ frameLists h h.top

end Verif.Gc
