/-!
# Model of lib/kind.c, lib/kind.h and lib/type.c

Types are nodes of a heap; a pointer to a type is the number of its node.  New types are added at
the end.  Reference counting and the collector of types are the subject of `Verif.TypeHeap` and are
left out here, as are source locations.

Functions that follow pointers through a possibly cyclic heap are cut off after a number of nested
calls (`R.more`); the theorems say when that number can be chosen large enough.
-/
namespace Verif.Types

/-- include/fble/fble-name.h:16-39: a name and its name space. -/
structure Name where
  str : List Char
  isType : Bool
  deriving DecidableEq

/-- lib/name.c:32-35 `FbleNamesEqual`. -/
def namesEqual (a b : Name) : Bool := a.isType = b.isType && a.str = b.str

/-- lib/kind.h:20-69 `FbleKind`. -/
inductive Kind where
  | basic (level : Nat)
  | poly (arg rkind : Kind)
  deriving DecidableEq

/-- lib/kind.h:121-124 `FbleDataTypeTag`. -/
inductive DataKind where
  | struct
  | union
  deriving DecidableEq

/-- Address of a type. -/
abbrev Ptr := Nat

/-- lib/type.h:22-183: the types. `var` holds its name only for messages; it is left out. -/
inductive Node where
  | data (datatype : DataKind) (fields : List (Name × Ptr))
  | func (arg rtype : Ptr)
  | poly (arg body : Ptr)
  | polyApply (poly arg : Ptr)
  | package (path : List Name) (opaq : Bool)
  | abstract (package type : Ptr)
  | var (kind : Kind) (value : Option Ptr)
  | type (type : Ptr)
  deriving DecidableEq

abbrev Heap := List Node

/-- A result, a failed assertion (or a read of something that is not there), or the cut. -/
inductive R (α : Type) where
  | ok (a : α)
  | fail
  | more
  deriving DecidableEq

namespace R
def bind {α β : Type} : R α → (α → R β) → R β
  | .ok a, f => f a
  | .fail, _ => .fail
  | .more, _ => .more

instance : Monad R where
  pure := .ok
  bind := R.bind
end R

/-- Reading the type at an address. -/
def get (h : Heap) (p : Ptr) : R Node :=
  match h[p]? with
  | some n => .ok n
  | none => .fail

/-- lib/type.c:923-930 `FbleNewTypeRaw`, with the fields assigned. -/
def new (h : Heap) (n : Node) : Heap × Ptr := (h ++ [n], h.length)

/-! ### Kinds -/

/-- lib/type.c:85-113 `LevelAdjustedKind`.  Levels are natural numbers without bound. -/
def levelAdjusted (k : Kind) (increment : Int) : R Kind :=
  match k with
  | .basic level => if (level : Int) + increment ≥ 0 then .ok (.basic ((level : Int) + increment).toNat) else .fail
  | .poly arg rkind => do
    let rkind ← levelAdjusted rkind increment
    return .poly arg rkind

/-- lib/type.c:849-864 `FbleGetKindLevel`. -/
def kindLevel : Kind → Nat
  | .basic level => level
  | .poly _ rkind => kindLevel rkind

/-- lib/type.c:867-890 `FbleKindsEqual`. -/
def kindsEqual : Kind → Kind → Bool
  | .basic a, .basic b => a == b
  | .poly a r, .poly b s => kindsEqual a b && kindsEqual r s
  | .basic _, .poly _ _ => false
  | .poly _ _, .basic _ => false

/-- lib/type.c:784-846 `FbleGetKind`. -/
def getKind : Nat → Heap → Ptr → R Kind
  | 0, _, _ => .more
  | n + 1, h, t => do
    match ← get h t with
    | .data _ _ => return .basic 0
    | .func _ _ => return .basic 0
    | .package _ _ => return .basic 0
    | .abstract _ _ => return .basic 0
    | .poly arg body =>
      let argKind ← getKind n h arg
      let argKind ← levelAdjusted argKind 1
      let rkind ← getKind n h body
      return .poly argKind rkind
    | .polyApply poly _ =>
      match ← getKind n h poly with
      | .poly _ rkind => return rkind
      | .basic _ => .fail
    | .var kind _ => return kind
    | .type t =>
      let k ← getKind n h t
      levelAdjusted k 1

/-! ### Construction -/

/-- lib/type.c:946-952: a number of `FBLE_TYPE_TYPE`s around a type. -/
def wrapType : Nat → Heap → Ptr → Heap × Ptr
  | 0, h, t => (h, t)
  | n + 1, h, t => wrapType n (new h (.type t)).1 (new h (.type t)).2

/-- lib/type.c:933-954 `FbleNewVarType`. -/
def newVarType (h : Heap) (kind : Kind) : R (Heap × Ptr) := do
  let level := kindLevel kind
  let k ← levelAdjusted kind (-(level : Int))
  let (h, v) := new h (.var k none)
  return wrapType level h v

/-- lib/type.c:957-972 `FbleAssignVarType`. -/
def assignVarType : Nat → Heap → Ptr → Ptr → R Heap
  | 0, _, _, _ => .more
  | n + 1, h, var, value => do
    match ← get h var with
    | .type v =>
      match ← get h value with
      | .type w => assignVarType n h v w
      | _ => .fail
    | .var _ _ =>
      let kind ← getKind n h value
      return h.set var (.var kind (some value))
    | _ => .fail

/-- lib/type.c:975-997 `FbleNewPolyType`. -/
def newPolyType : Nat → Heap → Ptr → Ptr → R (Heap × Ptr)
  | 0, _, _, _ => .more
  | n + 1, h, arg, body => do
    match ← get h body with
    | .type t =>
      let (h, b) ← newPolyType n h arg t
      return new h (.type b)
    | _ => return new h (.poly arg body)

/-- lib/type.c:1000-1021 `FbleNewPolyApplyType`. -/
def newPolyApplyType : Nat → Heap → Ptr → Ptr → R (Heap × Ptr)
  | 0, _, _, _ => .more
  | n + 1, h, poly, arg => do
    match ← get h poly with
    | .type t =>
      let (h, b) ← newPolyApplyType n h t arg
      return new h (.type b)
    | _ => return new h (.polyApply poly arg)

/-- lib/type.c:1053-1061 `FbleValueOfType`. -/
def valueOfType (h : Heap) (t : Ptr) : R (Option Ptr) := do
  match ← get h t with
  | .type t => return some t
  | _ => return none

/-! ### Substitution -/

/-- `a || b` where `b` is not evaluated if `a` holds. -/
def orElse (a : R Bool) (b : Unit → R Bool) : R Bool := do
  if ← a then return true else b ()

/-- `a && b` -/
def andAlso (a : R Bool) (b : Unit → R Bool) : R Bool := do
  if ← a then b () else return false

/-- The loop of `HasParam_` over fields: lib/type.c:357-362. -/
def anyField (f : Ptr → R Bool) : List (Name × Ptr) → R Bool
  | [] => return false
  | (_, t) :: fs => orElse (f t) fun _ => anyField f fs

/-- lib/type.c:328-404 `HasParam` and `HasParam_`.  The types whose flag `visiting` is set are those
of the calls that have not returned yet. -/
def hasParam (h : Heap) (param : Ptr) : Nat → List Ptr → Ptr → R Bool
  | 0, _, _ => .more
  | n + 1, visiting, t =>
    if visiting.contains t then .ok false
    else do
      let has := hasParam h param n (t :: visiting)
      match ← get h t with
      | .data _ fields => anyField has fields
      | .func arg rtype => orElse (has arg) fun _ => has rtype
      | .poly arg body => if arg ≠ param then has body else return false
      | .polyApply poly arg => orElse (has arg) fun _ => has poly
      | .package _ _ => return false
      | .abstract _ type => has type
      | .var _ value =>
        if t = param then return true
        else match value with
          | some v => has v
          | none => return false
      | .type type => has type

/-- The loop of `Subst` over fields: lib/type.c:454-462. -/
def substFields (sub : Heap → Ptr → R (Heap × Ptr)) : Heap → List (Name × Ptr) → R (Heap × List (Name × Ptr))
  | h, [] => return (h, [])
  | h, (x, t) :: fs => do
    let (h, s) ← sub h t
    let (h, ss) ← substFields sub h fs
    return (h, (x, s) :: ss)

/-- `tag != FBLE_TYPE_TYPE` -/
def notType (h : Heap) (t : Ptr) : R Unit := do
  match ← get h t with
  | .type _ => .fail
  | _ => return ()

/-- lib/type.c:441-577 `Subst`.  The new type of a struct or union is allocated before the fields
are substituted, here after them; addresses of new types have no meaning. -/
def subst (param arg : Ptr) : Nat → List (Ptr × Ptr) → Heap → Ptr → R (Heap × Ptr)
  | 0, _, _, _ => .more
  | n + 1, tps, h, t => do
    if !(← hasParam h param n [] t) then return (h, t)
    match ← get h t with
    | .data dt fields =>
      let (h, fields) ← substFields (subst param arg n tps) h fields
      return new h (.data dt fields)
    | .func a r =>
      let (h, a) ← subst param arg n tps h a
      let (h, r) ← subst param arg n tps h r
      return new h (.func a r)
    | .poly a b =>
      let (h, b) ← subst param arg n tps h b
      notType h b
      return new h (.poly a b)
    | .polyApply p a =>
      let (h, p) ← subst param arg n tps h p
      let (h, a) ← subst param arg n tps h a
      notType h p
      return new h (.polyApply p a)
    | .package _ _ => .fail
    | .abstract p t =>
      let (h, t) ← subst param arg n tps h t
      return new h (.abstract p t)
    | .var kind value =>
      match value with
      | none => return (h, if t = param then arg else t)
      | some v =>
        match tps.find? (fun tp => tp.1 = v) with
        | some tp => return (h, tp.2)
        | none =>
          let (h, svar) ← newVarType h kind
          let (h, value) ← subst param arg n ((v, svar) :: tps) h v
          let h ← assignVarType n h svar value
          return (h, value)
    | .type t =>
      let (h, t) ← subst param arg n tps h t
      return new h (.type t)

/-! ### Normal forms -/

/-- lib/type.c:242-314 `Normal`; `none` stands for NULL. -/
def normal : Nat → List Ptr → Heap → Ptr → R (Heap × Option Ptr)
  | 0, _, _, _ => .more
  | n + 1, normalizing, h, t =>
    if normalizing.contains t then .ok (h, none)
    else do
      let nn := t :: normalizing
      match ← get h t with
      | .poly arg body =>
        match ← normal n nn h body with
        | (h, none) => return (h, none)
        | (h, some pat) =>
          match ← get h pat with
          | .polyApply poly arg' => if arg' = arg then return (h, some poly) else return (h, some t)
          | _ => return (h, some t)
      | .polyApply poly arg =>
        match ← normal n nn h poly with
        | (h, none) => return (h, none)
        | (h, some p) =>
          match ← get h p with
          | .poly parg body =>
            let (h, s) ← subst parg arg n [] h body
            normal n nn h s
          | _ => return (h, some t)
      | .var _ value =>
        match value with
        | none => return (h, some t)
        | some v => normal n nn h v
      | _ => return (h, some t)

/-- lib/type.c:1045-1050 `FbleNormalType`. -/
def normalType (n : Nat) (h : Heap) (t : Ptr) : R (Heap × Ptr) := do
  match ← normal n [] h t with
  | (h, some t) => return (h, t)
  | (_, none) => .fail

/-- lib/type.c:1024-1042 `FbleTypeIsVacuous`: the two loops. -/
def stripPoly : Nat → Heap → Option Ptr → R (Heap × Option Ptr)
  | 0, _, _ => .more
  | _ + 1, h, none => return (h, none)
  | n + 1, h, some t => do
    match ← get h t with
    | .poly _ body =>
      let (h, t) ← normal n [] h body
      stripPoly n h t
    | _ => return (h, some t)

/-- lib/type.c:1027-1032 -/
def stripType : Nat → Heap → Option Ptr → R (Heap × Option Ptr)
  | 0, _, _ => .more
  | _ + 1, h, none => return (h, none)
  | n + 1, h, some t => do
    match ← get h t with
    | .type t =>
      let (h, t) ← normal n [] h t
      stripType n h t
    | _ => return (h, some t)

/-- lib/type.c:1024-1042 `FbleTypeIsVacuous`. -/
def typeIsVacuous (n : Nat) (h : Heap) (t : Ptr) : R (Heap × Bool) := do
  let (h, t) ← normal n [] h t
  let (h, t) ← stripType n h t
  let (h, t) ← stripPoly n h t
  return (h, t.isNone)

/-! ### Equality -/

/-- lib/type.h `FbleTypeAssignmentV` -/
abbrev Vars := List (Ptr × Option Ptr)

/-- Result of comparing: the heap, the assignments, the answer. -/
abbrev EqRes := R (Heap × Vars × Bool)

/-- `x && y` for comparisons. -/
def andEq (x : EqRes) (y : Heap → Vars → EqRes) : EqRes := do
  let (h, vars, b) ← x
  if b then y h vars else return (h, vars, false)

/-- lib/type.c:663-675: the loop over fields. -/
def fieldsEqual (eq : Heap → Vars → Ptr → Ptr → EqRes) : Heap → Vars → List (Name × Ptr) → List (Name × Ptr) → EqRes
  | h, vars, (x, a) :: as, (y, b) :: bs =>
    if !namesEqual x y then return (h, vars, false)
    else andEq (eq h vars a b) fun h vars => fieldsEqual eq h vars as bs
  | h, vars, _, _ => return (h, vars, true)

/-- lib/type.c:600-612: what is to be compared with `b`, given that `a` is a normal form. -/
inductive Infer where
  | done (vars : Vars)
  | go (h : Heap) (a : Ptr)

/-- lib/type.c:599-613: look for a type variable to be inferred. -/
def infer (n : Nat) (h : Heap) (vars : Vars) (a b : Ptr) : R Infer :=
  match vars.findIdx? (fun v => v.1 = a) with
  | none => .ok (.go h a)
  | some i =>
    match vars[i]? with
    | some (v, none) => .ok (.done (vars.set i (v, some b)))
    | some (_, some t) => do
      let (h, a) ← normalType n h t
      return .go h a
    | none => .fail

/-- Is the package at this address not opaque? -/
def transparent (h : Heap) (p : Ptr) : R Bool := do
  match ← get h p with
  | .package _ opaq => return !opaq
  | _ => .fail

/-- lib/type.c:651-780: comparison of two normal forms with the same tag. -/
def sameTag (n : Nat) (rec : List (Ptr × Ptr) → Heap → Vars → Ptr → Ptr → EqRes) (neq : List (Ptr × Ptr)) (h : Heap) (vars : Vars) (a b : Ptr) (na nb : Node) : EqRes :=
  match na, nb with
  | .data dta fa, .data dtb fb =>
    if dta ≠ dtb ∨ fa.length ≠ fb.length then .ok (h, vars, false)
    else fieldsEqual (rec neq) h vars fa fb
  | .func aa ar, .func ba br => andEq (rec neq h vars aa ba) fun h vars => rec neq h vars ar br
  | .poly aa ab, .poly ba bb => do
    let ka ← getKind n h aa
    let kb ← getKind n h ba
    if !kindsEqual ka kb then return (h, vars, false)
    rec ((aa, ba) :: neq) h vars ab bb
  | .polyApply ap aa, .polyApply bp ba => andEq (rec neq h vars ap bp) fun h vars => rec neq h vars aa ba
  | .package pa _, .package pb _ => .ok (h, vars, pa = pb)
  | .abstract ap t, .abstract bp u => andEq (rec neq h vars ap bp) fun h vars => rec neq h vars t u
  | .var _ va, .var _ vb => if va = none ∧ vb = none then .ok (h, vars, a = b) else .fail
  | .type t, .type u => rec neq h vars t u
  | _, _ => .ok (h, vars, false)

/-- lib/type.c:620-650: comparison of two normal forms that are not assumed to be equal. -/
def compareNormal (n : Nat) (rec : List (Ptr × Ptr) → Heap → Vars → Ptr → Ptr → EqRes) (eq : List (Ptr × Ptr)) (h : Heap) (vars : Vars) (a b : Ptr) : EqRes := do
  let neq := (a, b) :: eq
  let na ← get h a
  let nb ← get h b
  match na with
  | .abstract p t =>
    if ← transparent h p then rec neq h vars t b
    else match nb with
      | .abstract q u => if ← transparent h q then rec neq h vars a u else sameTag n rec neq h vars a b na nb
      | _ => sameTag n rec neq h vars a b na nb
  | _ => match nb with
    | .abstract q u => if ← transparent h q then rec neq h vars a u else sameTag n rec neq h vars a b na nb
    | _ => sameTag n rec neq h vars a b na nb

/-- lib/type.c:594-781 `TypesEqual`. -/
def typesEqual : Nat → List (Ptr × Ptr) → Heap → Vars → Ptr → Ptr → EqRes
  | 0, _, _, _, _, _ => .more
  | n + 1, eq, h, vars, a, b => do
    let (h, a) ← normalType n h a
    match ← infer n h vars a b with
    | .done vars => return (h, vars, true)
    | .go h a =>
      let (h, b) ← normalType n h b
      if eq.contains (a, b) then return (h, vars, true)
      else compareNormal n (typesEqual n) eq h vars a b

/-- lib/type.c:1106-1116 `FbleTypesEqual`, `FbleTypeInfer` without variables. -/
def fbleTypesEqual (n : Nat) (h : Heap) (a b : Ptr) : R Bool := do
  let (_, _, r) ← typesEqual n [] h [] a b
  return r

/-- lib/type.c:1064-1103 `FbleListElementType`. -/
def listElementType (n : Nat) (h : Heap) (type : Ptr) : R (Option Ptr) := do
  let (h, d) ← normalType n h type
  match ← get h d with
  | .data .union [(_, cons), (_, nil)] =>
    let (h, d) ← normalType n h nil
    match ← get h d with
    | .data .struct [] =>
      let (h, d) ← normalType n h cons
      match ← get h d with
      | .data .struct [(_, elem), (_, tail)] =>
        if ← fbleTypesEqual n h type tail then return some elem else return none
      | _ => return none
    | _ => return none
  | _ => return none

end Verif.Types
