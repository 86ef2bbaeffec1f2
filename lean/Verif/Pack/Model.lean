/-
Model of the packed value representation of fble values.
Source: /repo/lib/value.c (line numbers below refer to it).

A `FbleValue*` is a 64 bit word.  If its least significant bit is set the word itself is the
value ("packed"); otherwise it is NULL (0), or the address of a heap object.
-/
namespace Verif.Pack

/-- A C `intptr_t` / `FbleValue*` (two's complement, 64 bits). -/
abbrev Word := BitVec 64

/-- Heap objects, value.c:83-150 (`StructValue`, `UnionValue`, `FuncValue`, `RefValue`,
`NativeValue`).  Only the parts observable through the accessors modelled here are kept:
functions and native values are opaque identities. -/
inductive Obj where
  | struct (fields : List Word)
  | union (tag : Nat) (arg : Word)
  | ref (value : Option Word)
  | opaque (id : Nat)
deriving Repr, DecidableEq

/-- The heap: which objects live at which addresses. -/
abbrev Heap := Word → Option Obj

/-- value.c:775-778 `IsPacked`: `((intptr_t)value) & 0x1`. -/
def isPacked (w : Word) : Bool := w.getLsbD 0

/-- The loop `while (data & 0x1) { data >>= 1; n++; } data >>= 1;`
(value.c:811-815, 822-826, 1307-1310, 1402-1405): counts the leading ones and skips them and
the terminator.  `>>` is an arithmetic shift.  The fuel only bounds the number of bits looked
at: for the all-ones word the C loop does not terminate, which is `none` here. -/
def skipOnes : Nat → Word → Option (Nat × Word)
  | 0, _ => none
  | fuel + 1, data =>
    if data.getLsbD 0 then
      match skipOnes fuel (data.sshiftRight 1) with
      | some (n, d) => some (n + 1, d)
      | none => none
    else some (0, data.sshiftRight 1)

/-- Skips `n` consecutive packed values (the `for` loop of value.c:817-820 and of
value.c:1313-1315) given the length function for one value. Returns the number of bits skipped
and the shifted word.  A shift `data >>= arglen` by 64 or more is undefined behaviour, which is
`none` here (like non-termination: no result). -/
def skipArgs (len : Word → Option Nat) : Nat → Word → Option (Nat × Word)
  | 0, data => some (0, data)
  | n + 1, data =>
    match len data with
    | none => none
    | some l =>
      if 64 ≤ l then none else
      match skipArgs len n (data.sshiftRight l) with
      | some (l', d) => some (l + l', d)
      | none => none

/-- value.c:804-831 `PackedValueLength`. `fuel` bounds the recursion depth (the C recursion
has none; on words that are not packed values it may run forever). -/
def packedLen : Nat → Word → Option Nat
  | 0, _ => none
  | fuel + 1, data =>
    if data.getLsbD 0 = false then
      match skipOnes 65 (data.sshiftRight 1) with
      | none => none
      | some (argc, d) =>
        match skipArgs (packedLen fuel) argc d with
        | none => none
        | some (l, _) => some (argc + 2 + l)
    else
      match skipOnes 65 (data.sshiftRight 1) with
      | none => none
      | some (tag, d) =>
        match packedLen fuel d with
        | none => none
        | some l => some (tag + 2 + l)

/-- Recursion depth used for `PackedValueLength` in the functions below. -/
def depth : Nat := 64

/-- State of the packing loop in `FbleNewStructValue`. `ub` records that an undefined
operation has been evaluated; from then on `data` is the arbitrary value `poison`. -/
structure PackState where
  data : Word
  numBits : Nat
  ub : Bool
deriving Repr, DecidableEq

/-- The loop of value.c:1242-1256.  The argument list is given in the order in which the loop
visits it, i.e. last argument first.  `(intptr_t)1 << arglen` and `data << arglen` are undefined
for `arglen ≥ 64`, and `((intptr_t)1 << 63) - 1` is a signed overflow. -/
def packLoop (poison : Word) : List Word → PackState → Option PackState
  | [], s => some s
  | a :: rest, s =>
    if isPacked a then
      let argdata := a.sshiftRight 1
      match packedLen depth argdata with
      | none => none
      | some arglen =>
        let bad := decide (63 ≤ arglen)
        let mask : Word := (1#64 <<< arglen) - 1#64
        packLoop poison rest {
          data := if bad || s.ub then poison else (s.data <<< arglen) ||| (mask &&& argdata)
          numBits := s.numBits + arglen
          ub := s.ub || bad }
    else some { s with numBits := s.numBits + 64 }

/-- `data = (data << 1) | 1` repeated `n` times (value.c:1261-1263, 1337-1339). -/
def pushOnes : Nat → Word → Word
  | 0, d => d
  | n + 1, d => pushOnes n ((d <<< 1) ||| 1#64)

/-- Result of a constructor: either a packed word, or the object to be allocated. -/
inductive Built where
  | word (w : Word)
  | obj (o : Obj)
deriving Repr, DecidableEq

/-- value.c:1237-1277 `FbleNewStructValue`.  Returns what is built and whether undefined
behaviour was evaluated on the way. -/
def newStruct (poison : Word) (args : List Word) : Option (Built × Bool) :=
  match packLoop poison args.reverse ⟨0#64, 0, false⟩ with
  | none => none
  | some s =>
    if s.numBits + args.length + 1 < 64 then
      some (.word (((pushOnes args.length (s.data <<< 1)) <<< 2) ||| 1#64), s.ub)
    else
      some (.obj (.struct args), s.ub)

/-- value.c:1329-1349 `FbleNewUnionValue`. -/
def newUnion (tag : Nat) (arg : Word) : Option Built :=
  if isPacked arg then
    let data := arg.sshiftRight 1
    match packedLen depth data with
    | none => none
    | some len =>
      if len + tag + 1 < 64 then
        some (.word (((pushOnes tag (data <<< 1)) <<< 2) ||| 3#64))
      else some (.obj (.union tag arg))
  else some (.obj (.union tag arg))

/-- `(data << 1) | 1`: the re-packing of an accessed value (value.c:1318, 1412, 1447). -/
def repack (d : Word) : Word := (d <<< 1) ||| 1#64

/-- value.c:1236 `FbleGenericTypeValue`. -/
def genericTypeValue : Word := 1#64

/-- value.c:28 / fble-value.h `FbleWrongUnionTag = (FbleValue*)0x2`. -/
def wrongUnionTag : Word := 2#64

/-- Outcome of an accessor: a result, the NULL / -1 result on an undefined object, or a failed
assertion (crash). -/
inductive Acc (α : Type) where
  | ok (a : α)
  | undef
  | crash
deriving Repr, DecidableEq

/-- value.c:1300-1325: `FbleStructValueField` on an object that has been through `StrictValue`
(so it is packed, or a non-reference heap object). -/
def structFieldStrict (h : Heap) (object : Word) (field : Nat) : Acc Word :=
  if isPacked object then
    match skipOnes 65 (object.sshiftRight 2) with
    | none => .crash
    | some (_, d) =>
      match skipArgs (packedLen depth) field d with
      | none => .crash
      | some (_, d) => .ok (repack d)
  else
    match h object with
    | some (.struct fs) => match fs[field]? with
      | some w => .ok w
      | none => .crash            -- assert(field < value->fieldc)
    | _ => .crash                 -- assert(object->tag == STRUCT_VALUE)

/-- value.c:1359-1388 `FbleUnionValueTag` after `StrictValue`. -/
def unionTagStrict (h : Heap) (object : Word) : Acc Nat :=
  if isPacked object then
    match skipOnes 65 (object.sshiftRight 2) with
    | none => .crash
    | some (tag, _) => .ok tag
  else
    match h object with
    | some (.union tag _) => .ok tag
    | _ => .crash

/-- value.c:1390-1419 `FbleUnionValueArg` after `StrictValue`. -/
def unionArgStrict (h : Heap) (object : Word) : Acc Word :=
  if isPacked object then
    match skipOnes 65 (object.sshiftRight 2) with
    | none => .crash
    | some (_, d) => .ok (repack d)
  else
    match h object with
    | some (.union _ arg) => .ok arg
    | _ => .crash

/-- value.c:1421-1456 `FbleUnionValueField` after `StrictValue`. -/
def unionFieldStrict (h : Heap) (object : Word) (field : Nat) : Acc Word :=
  if isPacked object then
    match skipOnes 65 (object.sshiftRight 2) with
    | none => .crash
    | some (tag, d) => if tag ≠ field then .ok wrongUnionTag else .ok (repack d)
  else
    match h object with
    | some (.union tag arg) => if tag = field then .ok arg else .ok wrongUnionTag
    | _ => .crash

/-- value.c:847-854 `StrictValue`: follows assigned references.  `Strict h w o` says that the
loop started at `w` stops with result `o` (`o = none` is NULL: an unassigned reference). -/
inductive Strict (h : Heap) : Word → Option Word → Prop where
  | packed {w} : isPacked w = true → Strict h w (some w)
  | obj {w o} : isPacked w = false → h w = some o → (∀ r, o ≠ .ref r) → Strict h w (some w)
  | unassigned {w} : isPacked w = false → h w = some (.ref none) → Strict h w none
  | step {w v o} : isPacked w = false → h w = some (.ref (some v)) → Strict h v o → Strict h w o

/-- An accessor applied to an arbitrary value: `object = StrictValue(object)`, `NULL` gives the
undefined result, otherwise the accessor proper (value.c:1292-1298 and the same prologue in the
three union accessors). -/
def onStrict {α} (f : Word → Acc α) : Option Word → Acc α
  | none => .undef
  | some o => f o

/-- Allocation of what a constructor built. `NewValue`/`NewValueExtra` return the address of a
fresh heap object: any even, non-null address not in use and different from the sentinel 0x2
(malloc/stack alignment; trusted). -/
structure Fresh (h : Heap) (addr : Word) : Prop where
  even : isPacked addr = false
  nonnull : addr ≠ 0#64
  notSentinel : addr ≠ wrongUnionTag
  unused : h addr = none

/-- The heap after storing an object. -/
def Heap.set (h : Heap) (addr : Word) (o : Obj) : Heap := fun a => if a = addr then some o else h a

/-- Heap and value after a constructor returns, given the address the allocator would use. -/
def finish (h : Heap) (addr : Word) : Built → Heap × Word
  | .word w => (h, w)
  | .obj o => (h.set addr o, addr)

end Verif.Pack
