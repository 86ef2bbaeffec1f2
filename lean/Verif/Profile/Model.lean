/-
Model of the profiler, /repo/lib/profile.c.

SIMPLIFIED: counters and times are unbounded numbers (uint64_t in the code); vectors are lists and
grow without failing.  Pointers to FbleCallData are addresses, so that the cached pointers in the
sample stack are modelled as such.  An access outside an array sets `ub`.  A disabled profile
(thread == NULL) does nothing and is not modelled.
-/
namespace Verif.Profile

/-- Function update. -/
def upd {β : Type} (f : Nat → β) (a : Nat) (b : β) : Nat → β := fun x => if x = a then b else f x

/-- FbleCallData, fble-profile.h. -/
structure Data where
  id : Nat
  count : Nat
  time : Nat
deriving DecidableEq, Repr

/-- FbleProfile and FbleProfileThread (profile.c:84-190).  Per block: `self` time, the count and
time of its `block` record, and its `callees` (addresses of call data).  `calls` is the call stack
of (block, exit), top first; `samples` the sample stack of (caller, call data), top first; `sset`
the sample set, newest entry last; `ssize` its length. -/
structure St where
  blocks : Nat
  self : Nat → Nat
  count : Nat → Nat
  time : Nat → Nat
  callees : Nat → List Nat
  data : Nat → Data
  nextData : Nat
  calls : List (Nat × Nat)
  samples : List (Nat × Nat)
  sset : Nat → List Nat
  ssize : Nat
  ub : Bool

/-- The loop of the binary search in GetCallData, profile.c:279-291.  `fuel` bounds the number of
iterations; the theorems show that it suffices.  Returns where the callee is, or where it belongs. -/
def search (ids : List Nat) (callee : Nat) : Nat → Nat → Nat → Nat ⊕ Nat
  | 0, lo, _ => .inr lo
  | fuel + 1, lo, hi =>
    if lo < hi then
      let mid := (lo + hi) / 2
      let here := ids.getD mid 0
      if here < callee then search ids callee fuel (mid + 1) hi
      else if here = callee then .inl mid
      else search ids callee fuel lo mid
    else .inr lo

/-- The loop that shifts the elements up by one and the final append, profile.c:301-308. -/
def shift : Nat → List Nat → List Nat
  | d, [] => [d]
  | d, x :: xs => d :: shift x xs

/-- GetCallData, profile.c:272-311. -/
def getCallData (s : St) (caller callee : Nat) : St × Nat :=
  let xs := s.callees caller
  match search (xs.map fun a => (s.data a).id) callee xs.length 0 xs.length with
  | .inl i => (s, xs.getD i 0)
  | .inr lo =>
    ({ s with data := upd s.data s.nextData ⟨callee, 0, 0⟩, nextData := s.nextData + 1,
              callees := upd s.callees caller (xs.take lo ++ shift s.nextData (xs.drop lo)) },
     s.nextData)

/-- The part of EnterBlock that resizes the sample set, profile.c:463-470. -/
def resize (s : St) (caller : Nat) : St :=
  if s.ssize ≤ caller then
    { s with sset := fun i => if s.ssize ≤ i ∧ i < s.blocks then [] else s.sset i, ssize := s.blocks }
  else s

/-- `data->count++`. -/
def countData (s : St) (a : Nat) : St :=
  { s with data := upd s.data a { s.data a with count := (s.data a).count + 1 } }

/-- The first lines of EnterBlock: counting the block and resizing, profile.c:455-470. -/
def prepare (s : St) (block caller : Nat) : St :=
  let s := { s with count := upd s.count block (s.count block + 1), ub := s.ub || s.blocks ≤ block }
  let s := resize s caller
  { s with ub := s.ub || s.ssize ≤ caller }

/-- The rest of EnterBlock, profile.c:472-517, where the top of the call stack is (caller, exit). -/
def enterFrom (s : St) (caller exit : Nat) (rest : List (Nat × Nat)) (block : Nat) (replace : Bool) : St :=
  match (s.sset caller).find? (fun a => (s.data a).id == block) with
  | some a =>
    let s := countData s a
    { s with calls := if replace then (block, exit) :: rest else (block, 0) :: (caller, exit) :: rest }
  | none =>
    let p := getCallData s caller block
    let s := countData p.1 p.2
    { s with calls := if replace then (block, exit + 1) :: rest
                      else (block, 1) :: (caller, exit) :: rest,
             samples := (caller, p.2) :: s.samples,
             sset := upd s.sset caller (s.sset caller ++ [p.2]) }

/-- EnterBlock, profile.c:453-517. -/
def enter (s : St) (block : Nat) (replace : Bool) : St :=
  match s.calls with
  | [] => { s with ub := true }
  | (caller, exit) :: rest => enterFrom (prepare s block caller) caller exit rest block replace

/-- The loop of FbleProfileExitBlock, profile.c:702-707. -/
def popSamples : Nat → St → St
  | 0, s => s
  | n + 1, s =>
    match s.samples with
    | [] => { s with ub := true }
    | (caller, _) :: t =>
      popSamples n { s with samples := t, sset := upd s.sset caller (s.sset caller).dropLast }

/-- FbleProfileExitBlock, profile.c:695-710. -/
def exitBlock (s : St) : St :=
  match s.calls with
  | [] => { s with ub := true }
  | (_, e) :: rest =>
    let s := popSamples e s
    { s with calls := rest, ub := s.ub || rest.isEmpty }

/-- The loop of FbleProfileSample, profile.c:648-657, from the bottom of the sample stack up.
`seen` is the set of blocks with block_seen. -/
def charge (t : Nat) : List Nat → List (Nat × Nat) → St → St
  | _, [], s => s
  | seen, (_, a) :: r, s =>
    let callee := (s.data a).id
    let s1 := if seen.contains callee then s
      else { s with time := upd s.time callee (s.time callee + t) }
    let s2 := { s1 with data := upd s1.data a { s1.data a with time := (s1.data a).time + t } }
    charge t (if seen.contains callee then seen else callee :: seen) r s2

/-- FbleProfileSample, profile.c:637-660. -/
def sample (s : St) (t : Nat) : St :=
  match s.calls with
  | [] => { s with ub := true }
  | (top, _) :: _ =>
    let s := { s with self := upd s.self top (s.self top + t) }
    let s := charge t [] s.samples.reverse s
    { s with time := upd s.time 0 (s.time 0 + t) }

/-- FbleAddBlockToProfile, profile.c:538-550.  Its record starts with zeros. -/
def addBlock (s : St) : St :=
  { s with blocks := s.blocks + 1, self := upd s.self s.blocks 0, count := upd s.count s.blocks 0,
           time := upd s.time s.blocks 0, callees := upd s.callees s.blocks [] }

/-- FbleNewProfile, profile.c:520-535, with `n` further blocks, followed by FbleNewProfileThread,
profile.c:578-607. -/
def initial (n : Nat) : St where
  blocks := n + 1
  self := fun _ => 0
  count := upd (fun _ => 0) 0 1
  time := fun _ => 0
  callees := fun _ => []
  data := fun _ => ⟨0, 0, 0⟩
  nextData := 0
  calls := [(0, 0)]
  samples := []
  sset := fun _ => []
  ssize := n + 1
  ub := false

/-- The operations of the profiler. -/
inductive Op where
  | enter (b : Nat)
  | replace (b : Nat)
  | exit
  | sample (t : Nat)
  | addBlock
deriving DecidableEq

def step (s : St) : Op → St
  | .enter b => enter s b false
  | .replace b => enter s b true
  | .exit => exitBlock s
  | .sample t => sample s t
  | .addBlock => addBlock s

/-- Running operations, newest first in the list. -/
def run (n : Nat) : List Op → St
  | [] => initial n
  | op :: ops => step (run n ops) op

/-! ### Sorting for the report -/

/-- The merge loops of MergeSortCallData, profile.c:357-381. -/
def merge (le : Data → Data → Bool) : List Data → List Data → List Data
  | [], ys => ys
  | x :: xs, [] => x :: xs
  | x :: xs, y :: ys =>
    if le x y then x :: merge le xs (y :: ys) else y :: merge le (x :: xs) ys

/-- MergeSortCallData, profile.c:330-382, on the slices `a` and `b`; returns their contents
afterwards.  If `inPlace` the sorted data is in `a`, otherwise in `b`. -/
def msort (le : Data → Data → Bool) (inPlace : Bool) (a b : List Data) : List Data × List Data :=
  if h0 : a.length = 0 then (a, b)
  else if h1 : a.length = 1 then (if inPlace then (a, b) else (a, a))
  else
    let size1 := a.length / 2
    let r1 := msort le (!inPlace) (a.take size1) (b.take size1)
    let r2 := msort le (!inPlace) (a.drop size1) (b.drop size1)
    if inPlace then (merge le r1.2 r2.2, r1.2 ++ r2.2)
    else (r1.1 ++ r2.1, merge le r1.1 r2.1)
termination_by a.length
decreasing_by
  · simp only [List.length_take]; omega
  · simp only [List.length_drop]; omega

/-- SortCallData, profile.c:393-397; the content of the scratch buffer is arbitrary. -/
def sortData (le : Data → Data → Bool) (data scratch : List Data) : List Data :=
  (msort le true data scratch).1

/-- The comparisons used for the two orders, profile.c:358-370. -/
def ascending (x y : Data) : Bool := x.time ≤ y.time
def descending (x y : Data) : Bool := x.time ≥ y.time

/-! ### Linking -/

/-- FbleAddBlocksToProfile, profile.c:552-559, for each module in turn, link.c:71 and link.c:179:
the ranges (first, size) of block ids of the modules, given how many blocks there are already. -/
def moduleRanges : Nat → List Nat → List (Nat × Nat)
  | _, [] => []
  | blocks, n :: ns => (blocks, n) :: moduleRanges (blocks + n) ns

/-- How a linked program uses the profile: the block of its main function and the blocks of its
modules. -/
structure Linked where
  main : Nat
  ranges : List (Nat × Nat)

/-- LinkGenerated, link.c:152-216: adds `<main>` to the new profile (which has the root block only)
and gives its id to the main function (link.c:211). -/
def linkGenerated (sizes : List Nat) : Linked := ⟨1, moduleRanges 2 sizes⟩

/-- LinkInterpreted, link.c:41-104: adds `<main>` as well, but gives the main function block 0
(link.c:100). -/
def linkInterpreted (sizes : List Nat) : Linked := ⟨0, moduleRanges 2 sizes⟩

end Verif.Profile
