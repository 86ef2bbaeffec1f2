/-
Model of /repo/lib/type-heap.c, the garbage collected heap of types.

* Objects and generations are numbers; a generation record (struct Gen) is given by its id and its two
  lists of objects.  The linked lists of generations (`tail`) are lists, youngest first.
* SIMPLIFIED: the intrusive circular lists are lists; unlinking an object removes it from whichever
  list it is on.
* SIMPLIFIED: addresses of freed objects and generations are not reused, and ids of old generations are
  unbounded, always below the four special ids.
* Touching the memory of a freed object or a freed generation sets `ub`.
* FbleTypeOnFree (type.c:190-226) does not use the heap and is left out; FbleTypeRefs (type.c:134-187)
  is given by the list `refs` of the references a type holds.
-/
namespace Verif.TypeHeap

abbrev Obj := Nat
abbrev GenP := Nat

/-- The id of a generation: a number, or one of the special ids of type-heap.c:41-44. -/
inductive Id where
  | num (n : Nat)
  | gc
  | mark
  | save
  | new
deriving DecidableEq

/-- The special ids are the largest numbers, in this order: type-heap.c:41-44. -/
def Id.special : Id → Nat
  | .num _ => 0
  | .gc => 1
  | .mark => 2
  | .save => 3
  | .new => 4

/-- Comparison of ids as unsigned numbers. -/
def Id.lt : Id → Id → Bool
  | .num a, .num b => a < b
  | a, b => a.special < b.special

/-- Likewise, `a <= b`. -/
def Id.le (a b : Id) : Bool := !Id.lt b a

/-- struct FbleTypeHeap, type-heap.c:135-143, with the records Gen (type-heap.c:33-38) and Obj
(type-heap.c:55-60) it consists of.  `old` and `gcs` are the generations linked from `heap->old` and
`heap->gc`. -/
structure Heap where
  id : GenP → Id
  roots : GenP → List Obj
  nonRoots : GenP → List Obj
  old : List GenP
  mark : GenP
  gcs : List GenP
  save : GenP
  new : GenP
  next : GenP
  free : List Obj
  gen : Obj → GenP
  refcount : Obj → Nat
  refs : Obj → List Obj
  nextObj : Obj
  nextGen : GenP
  freed : List Obj
  freedGens : List GenP
  ub : Bool

/-- Function update. -/
def upd {α : Type} (f : Nat → α) (a : Nat) (b : α) : Nat → α := fun x => if x = a then b else f x

/-- `heap->old`. -/
def Heap.oldHead (h : Heap) : GenP := h.old.headD 0

/-- `heap->gc`. -/
def Heap.gcHead (h : Heap) : GenP := h.gcs.headD 0

/-- Reading or writing an object. -/
def touch (h : Heap) (o : Obj) : Heap := { h with ub := h.ub || h.freed.contains o }

/-- Reading or writing a generation. -/
def touchGen (h : Heap) (g : GenP) : Heap := { h with ub := h.ub || h.freedGens.contains g }

/-- Taking an object off the list it is on: the first two lines of MoveToFront, MoveToBack and of the
loops that free, type-heap.c:163-164. -/
def unlink (h : Heap) (o : Obj) : Heap :=
  { h with
    roots := fun g => (h.roots g).filter (· ≠ o)
    nonRoots := fun g => (h.nonRoots g).filter (· ≠ o)
    free := h.free.filter (· ≠ o) }

/-- MoveToFront to the roots of a generation, type-heap.c:161-169. -/
def toRootsFront (h : Heap) (g : GenP) (o : Obj) : Heap :=
  let h := unlink h o
  { h with roots := upd h.roots g (o :: h.roots g) }

/-- MoveToFront to the non-roots of a generation, type-heap.c:161-169. -/
def toNonRootsFront (h : Heap) (g : GenP) (o : Obj) : Heap :=
  let h := unlink h o
  { h with nonRoots := upd h.nonRoots g (o :: h.nonRoots g) }

/-- MoveToBack to the roots of a generation, type-heap.c:177-185. -/
def toRootsBack (h : Heap) (g : GenP) (o : Obj) : Heap :=
  let h := unlink h o
  { h with roots := upd h.roots g (h.roots g ++ [o]) }

/-- MoveToBack to the non-roots of a generation, type-heap.c:177-185. -/
def toNonRootsBack (h : Heap) (g : GenP) (o : Obj) : Heap :=
  let h := unlink h o
  { h with nonRoots := upd h.nonRoots g (h.nonRoots g ++ [o]) }

/-- NewGen, type-heap.c:213-223: the new generation is `h.nextGen`. -/
def newGen (h : Heap) (id : Id) : Heap :=
  { h with
    id := upd h.id h.nextGen id
    roots := upd h.roots h.nextGen []
    nonRoots := upd h.nonRoots h.nextGen []
    nextGen := h.nextGen + 1 }

/-- The first part of FbleTypeAddRef, which may include an old generation in the next cycle,
type-heap.c:478-492. -/
def addRefNext (h : Heap) (src dst : Obj) : Heap :=
  let sid := h.id (h.gen src)
  let did := h.id (h.gen dst)
  if sid.le (h.id h.oldHead) && sid.lt did && sid.lt (h.id h.next) then { h with next := h.gen src }
  else if sid == .mark && did == .new && sid.lt (h.id h.next) then { h with next := h.oldHead }
  else h

/-- Where FbleTypeAddRef moves the object referred to, type-heap.c:494-506. -/
def moveTo (h : Heap) (src dst : Obj) : Option GenP :=
  let sid := h.id (h.gen src)
  let did := h.id (h.gen dst)
  if did == .gc then
    if sid == .mark then some h.mark
    else if sid != .gc then some h.save
    else none
  else if sid == .mark && did == .save then some h.mark
  else none

/-- FbleTypeAddRef, type-heap.c:471-516. -/
def addRef (h : Heap) (src dst : Obj) : Heap :=
  let h := touch (touch h src) dst
  let h := touchGen (touchGen h (h.gen src)) (h.gen dst)
  let h := addRefNext h src dst
  match moveTo h src dst with
  | none => h
  | some g =>
    let h := { h with gen := upd h.gen dst g }
    if h.refcount dst = 0 then toNonRootsBack h g dst else toRootsBack h g dst

/-- FbleTypeRefs, type.c:134-187: FbleTypeAddRef for each reference. -/
def typeRefs (h : Heap) (o : Obj) : Heap := (h.refs o).foldl (fun h p => addRef h o p) (touch h o)

/-- Freeing the first object on the free list, type-heap.c:256-260 and 547-551. -/
def freeFirst (h : Heap) : Heap :=
  match h.free with
  | [] => h
  | o :: _ => { unlink (touch h o) o with freed := o :: h.freed }

/-- The next cycle's generations: what is in `gens` up to and including `next`, and what is after it. -/
def splitAfter (next : GenP) : List GenP → List GenP × List GenP
  | [] => ([], [])
  | g :: gs => if g = next then ([g], gs) else (g :: (splitAfter next gs).1, (splitAfter next gs).2)

/-- MoveAllToFront of the roots and non-roots of one generation to those of another,
type-heap.c:348-350 with 193-203. -/
def absorb (c : GenP) (h : Heap) (g : GenP) : Heap :=
  { h with
    id := upd h.id g .gc
    roots := upd (upd h.roots c (h.roots g ++ h.roots c)) g []
    nonRoots := upd (upd h.nonRoots c (h.nonRoots g ++ h.nonRoots c)) g [] }

/-- A first old generation if all were collected, type-heap.c:352-354. -/
def firstOld (h : Heap) : Heap := match h.old with
  | [] => { newGen h (.num 0) with old := [h.nextGen] }
  | _ :: _ => h

/-- The generation for new objects of the next cycle, type-heap.c:356-357. -/
def startNew (h : Heap) : Heap := { newGen h .new with new := h.nextGen, next := h.nextGen }

/-- The end of a cycle, type-heap.c:330-357: the objects not reached are put on the free list and
the generations for the next cycle are collected. -/
def endCycle (h : Heap) : Heap :=
  let h := { h with free := h.nonRoots h.gcHead ++ h.free, nonRoots := upd h.nonRoots h.gcHead [] }
  let h := { h with freedGens := h.gcs ++ h.freedGens }
  let (gcs, old) := splitAfter h.next (h.new :: h.old)
  let h := { h with gcs := gcs, old := old, id := upd h.id h.new .gc }
  startNew (firstOld (gcs.tail.foldl (absorb h.new) h))

/-- The part of IncrGc behind freeing objects and marking: type-heap.c:299-361. -/
def incrGc3 (h : Heap) : Heap × Bool :=
  match h.roots h.gcHead with
  | o :: _ =>
    let h := { h with gen := upd h.gen o h.mark }
    let h := typeRefs h o
    let h := { h with gen := upd h.gen o h.oldHead }
    (toRootsFront h h.oldHead o, false)
  | [] =>
  match h.roots h.save with
  | o :: _ =>
    let h := { h with gen := upd h.gen o h.mark }
    let h := typeRefs h o
    let h := { h with gen := upd h.gen o h.oldHead }
    (toRootsFront h h.oldHead o, false)
  | [] =>
  match h.nonRoots h.save with
  | o :: _ =>
    let h := typeRefs h o
    let h := { h with gen := upd h.gen o h.new }
    (toNonRootsFront h h.new o, false)
  | [] => (endCycle h, true)

/-- Starting the next old generation if the youngest one is not empty, type-heap.c:291-297. -/
def startOld (h : Heap) : Heap :=
  match h.roots h.oldHead, h.nonRoots h.oldHead with
  | [], [] => h
  | _, _ =>
    let n := match h.id h.oldHead with
      | .num n => n + 1
      | _ => 0
    let g := h.nextGen
    { newGen h (.num n) with old := g :: h.old }

/-- The part of IncrGc behind freeing objects: type-heap.c:273-361. -/
def incrGc2 (h : Heap) : Heap × Bool :=
  match h.nonRoots h.mark with
  | o :: _ =>
    let h := typeRefs h o
    let h := { h with gen := upd h.gen o h.oldHead }
    (toNonRootsBack h h.oldHead o, false)
  | [] =>
  match h.roots h.mark with
  | o :: _ =>
    let h := typeRefs h o
    let h := { h with gen := upd h.gen o h.oldHead }
    (toRootsBack h h.oldHead o, false)
  | [] => incrGc3 (startOld h)

/-- IncrGc, type-heap.c:247-361. -/
def incrGc (h : Heap) : Heap × Bool := incrGc2 (freeFirst (freeFirst h))

/-- FbleNewTypeHeap, type-heap.c:364-379. -/
def newHeap : Heap where
  id := fun g => match g with
    | 0 => .num 0
    | 1 => .mark
    | 2 => .gc
    | 3 => .save
    | _ => .new
  roots := fun _ => []
  nonRoots := fun _ => []
  old := [0]
  mark := 1
  gcs := [2]
  save := 3
  new := 4
  next := 4
  free := []
  gen := fun _ => 0
  refcount := fun _ => 0
  refs := fun _ => []
  nextObj := 0
  nextGen := 5
  freed := []
  freedGens := []
  ub := false

/-- FbleAllocType, type-heap.c:405-418: the new object is `nextObj`. -/
def allocType (h : Heap) : Heap :=
  let h := (incrGc h).1
  let o := h.nextObj
  { h with
    roots := upd h.roots h.new (o :: h.roots h.new)
    gen := upd h.gen o h.new
    refcount := upd h.refcount o 1
    refs := upd h.refs o []
    nextObj := o + 1 }

/-- The canonical generation of an object that changes between root and non-root,
type-heap.c:430-434 and 452-456. -/
def canonical (h : Heap) (o : Obj) : Heap :=
  let h := touchGen h (h.gen o)
  if h.id (h.gen o) == .gc then { h with gen := upd h.gen o h.gcHead } else h

/-- FbleRetainType, type-heap.c:421-439. -/
def retainType (h : Heap) (o : Obj) : Heap :=
  let h := touch h o
  let c := h.refcount o
  let h := { h with refcount := upd h.refcount o (c + 1) }
  if c = 0 then
    let h := canonical h o
    toRootsBack h (h.gen o) o
  else h

/-- FbleReleaseType, type-heap.c:442-468. -/
def releaseType (h : Heap) (o : Obj) : Heap :=
  let h := touch h o
  let c := h.refcount o - 1
  let h := { h with refcount := upd h.refcount o c }
  if c = 0 then
    let h := canonical h o
    let g := h.gen o
    let h := if (h.id g).lt (h.id h.next) && (h.id g).le (h.id h.oldHead) && (h.roots g).head? == some o then
        { h with next := g }
      else h
    toNonRootsBack h g o
  else h

/-- Storing a reference in a type, followed by FbleTypeAddRef. -/
def storeRef (h : Heap) (src dst : Obj) : Heap :=
  let h := { h with refs := upd h.refs src (h.refs src ++ [dst]) }
  addRef h src dst

/-- `while (!IncrGc(heap));` with a bound on the number of steps. -/
def round : Nat → Heap → Option Heap
  | 0, _ => none
  | n + 1, h => match incrGc h with
    | (h, true) => some h
    | (h, false) => round n h

/-- Freeing everything on the free list, type-heap.c:546-552. -/
def drain : Nat → Heap → Heap
  | 0, h => h
  | n + 1, h => drain n (freeFirst h)

/-- The do loop of FullGc, type-heap.c:540-554. -/
def fullLoop : Nat → Heap → Option Heap
  | 0, _ => none
  | n + 1, h => match round (n + 1) h with
    | none => none
    | some h => if h.free = [] then some h else fullLoop n (drain h.free.length h)

/-- FullGc, type-heap.c:531-555, with a bound on the number of steps. -/
def fullGc (n : Nat) (h : Heap) : Option Heap := match round n h with
  | none => none
  | some h => fullLoop n h

end Verif.TypeHeap
