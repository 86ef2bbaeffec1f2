import Verif.Elab.Expr
import Verif.Compile.Source
/-
Model of lib/typecheck.c: from expressions to types and `Tc`.

Types live in the heap of `Verif.Types`, and are compared, normalized and built by its functions.
Error messages, source locations, reference counts and the `Cleaner` are left out.  Calls are cut
off (`R.more`) after a number of nested calls, because the comparison of types need not come to an
end.  NULL and TC_FAILED are `none`; a failed assertion or the use of a null pointer is `R.fail`.
-/
namespace Verif.Elab
open Types
open Compile (Var Tc Tcs Flds Brs)

/-- typecheck.c:25-34 `VarName`. -/
inductive VarName where
  | normal (x : Name)
  | module (path : List Name)
  deriving DecidableEq

/-- module-path.c:91-103 `FbleModulePathsEqual`, name by name. -/
def pathsEqual : List Name → List Name → Bool
  | [], [] => true
  | x :: xs, y :: ys => namesEqual x y && pathsEqual xs ys
  | _, _ => false

/-- typecheck.c:215-226 `VarNamesEqual`. -/
def varNamesEqual : VarName → VarName → Bool
  | .normal x, .normal y => namesEqual x y
  | .module p, .module q => pathsEqual p q
  | _, _ => false

/-- typecheck.c:71-76 `Var`; `var` is `none` for TYPE_VAR (typecheck.c:88-90). -/
structure V where
  name : VarName
  type : Ptr
  used : Bool
  var : Option Var

/-- typecheck.c:112-120 `Scope`, without `module`, which is the same for all scopes of a module, and
`parent`, which is the next scope in a list of scopes.  `args` and `locals` are listed with the
last variable first. -/
structure Scope where
  statics : List V
  args : List V
  locals : List V
  allocated : Nat
  captured : Option (List Var)

/-- What the functions change: the heap of types, and the scope with its parents. -/
structure S where
  heap : Heap
  scopes : List Scope

/-- A step of the type checker. -/
def TM (α : Type) := S → R (S × α)

instance : Monad TM where
  pure a := fun s => .ok (s, a)
  bind m f := fun s => (m s).bind fun x => f x.2 x.1

/-- A failed assertion. -/
def crash {α : Type} : TM α := fun _ => .fail

/-- A function on types that may add types. -/
def liftH {α : Type} (f : Heap → R (Heap × α)) : TM α :=
  fun s => (f s.heap).bind fun x => .ok ({ s with heap := x.1 }, x.2)

/-- A function on types that only looks at them. -/
def readH {α : Type} (f : Heap → R α) : TM α := fun s => (f s.heap).bind fun a => .ok (s, a)

/-- type.c:923-930 `FbleNewTypeRaw`. -/
def alloc (n : Node) : TM Ptr := liftH fun h => .ok (new h n)

/-! ### Scopes -/

/-- Changes the innermost scope. -/
def onScope {α : Type} (f : Scope → Scope × α) : TM α := fun s =>
  match s.scopes with
  | [] => .fail
  | sc :: rest => .ok ({ s with scopes := (f sc).1 :: rest }, (f sc).2)

/-- typecheck.c:248-258 `PushLocalVar`. -/
def pushLocal (x : VarName) (t : Ptr) : TM Unit := onScope fun sc =>
  ({ sc with locals := ⟨x, t, false, some (.loc sc.allocated)⟩ :: sc.locals, allocated := sc.allocated + 1 }, ())

/-- typecheck.c:283-293 `PushLocalTypeVar`. -/
def pushLocalType (x : VarName) (t : Ptr) : TM Unit := onScope fun sc =>
  ({ sc with locals := ⟨x, t, false, none⟩ :: sc.locals }, ())

/-- typecheck.c:304-316 `PopLocalVar`. -/
def popLocal : TM Unit := onScope fun sc =>
  match sc.locals with
  | [] => (sc, ())
  | v :: vs => ({ sc with locals := vs, allocated := if v.var.isSome then sc.allocated - 1 else sc.allocated }, ())

/-- typecheck.c:415-434 `InitScope`: the variables for arguments. -/
def argVars : Nat → List (VarName × Ptr) → List V
  | _, [] => []
  | i, (x, t) :: args => ⟨x, t, false, some (.arg i)⟩ :: argVars (i + 1) args

/-- typecheck.c:415-434 `InitScope`. -/
def initScope (captured : Option (List Var)) (args : List (VarName × Ptr)) : Scope :=
  ⟨[], (argVars 0 args).reverse, [], 0, captured⟩

/-- A new scope within the current one. -/
def pushScope (sc : Scope) : TM Unit := fun s => .ok ({ s with scopes := sc :: s.scopes }, ())

/-- typecheck.c:444-463 `FreeScope`; what is read of the scope before is the result. -/
def popScope : TM Scope := fun s =>
  match s.scopes with
  | [] => .fail
  | sc :: rest => .ok ({ s with scopes := rest }, sc)

/-- The loops of `GetVar`, typecheck.c:335-365: the first variable of that name is marked. -/
def useFirst (x : VarName) (phantom : Bool) : List V → Option (V × List V)
  | [] => none
  | v :: vs =>
    if varNamesEqual x v.name then
      let v := if !phantom && v.var.isSome then { v with used := true } else v
      some (v, v :: vs)
    else (useFirst x phantom vs).map fun r => (r.1, v :: r.2)

/-- typecheck.c:333-391 `GetVar`. -/
def getVar (x : VarName) : Bool → List Scope → Option (V × List Scope)
  | _, [] => none
  | phantom, sc :: rest =>
    match useFirst x phantom sc.locals with
    | some (v, vs) => some (v, { sc with locals := vs } :: rest)
    | none =>
    match useFirst x phantom sc.args with
    | some (v, vs) => some (v, { sc with args := vs } :: rest)
    | none =>
    match useFirst x phantom sc.statics with
    | some (v, vs) => some (v, { sc with statics := vs } :: rest)
    | none =>
    match getVar x (sc.captured.isNone || phantom) rest with
    | none => none
    | some (v, rest) =>
      match phantom, v.var with
      | false, some var =>
        let cv : V := ⟨v.name, v.type, true, some (.static sc.statics.length)⟩
        some (cv, { sc with statics := sc.statics ++ [cv], captured := sc.captured.map (· ++ [var]) } :: rest)
      | _, _ => some (v, sc :: rest)

/-- `GetVar` for the current scope. -/
def lookup (x : VarName) : TM (Option V) := fun s =>
  match getVar x false s.scopes with
  | none => .ok (s, none)
  | some (v, scopes) => .ok ({ s with scopes := scopes }, some v)

/-! ### Helpers -/

/-- module-path.c:106-118 `FbleModuleBelongsToPackage`, name by name. -/
def belongsToPackage : List Name → List Name → Bool
  | _, [] => true
  | [], _ :: _ => false
  | x :: xs, y :: ys => namesEqual x y && belongsToPackage xs ys

/-- typecheck.c:566-580 `CheckNameSpace`. -/
def checkNameSpace (n : Nat) (x : Name) (t : Ptr) : TM Bool := readH fun h => do
  let level := kindLevel (← getKind n h t)
  return (level == 0 && !x.isType) || (level == 1 && x.isType)

/-- typecheck.c:766-779 `DepolyType`. -/
def depoly : Nat → Heap → Ptr → R (Heap × (Ptr × Vars))
  | 0, _, _ => .more
  | n + 1, h, t => do
    let (h, p) ← normalType n h t
    match ← get h p with
    | .poly arg body =>
      let (h, q, vars) ← depoly n h body
      return (h, q, (arg, none) :: vars)
    | _ => return (h, p, [])

/-- typecheck.c:801-878 `PolyApply`, for a poly and an argument that are not NULL. -/
def polyApply (n : Nat) (poly : Ptr × Tc) (argType : Ptr) : TM (Option (Ptr × Tc)) := do
  match ← readH (getKind n · poly.1) with
  | .poly expected _ =>
    let actual ← readH (getKind n · argType)
    if !kindsEqual expected actual then return none
    else match ← readH (valueOfType · argType) with
      | none => crash
      | some arg =>
        let pat ← liftH (newPolyApplyType n · poly.1 arg)
        return some (pat, poly.2)
  | .basic _ =>
    match ← readH (valueOfType · poly.1) with
    | none => return none
    | some pv =>
      let package ← liftH (normalType n · pv)
      match ← readH (get · package) with
      | .package _ _ =>
        match ← readH (valueOfType · argType) with
        | none => return none
        | some arg =>
          let abs ← alloc (.abstract package arg)
          let t ← alloc (.type abs)
          return some (t, .typeVal)
      | _ => return none

/-- typecheck.c:918-924: the comparison of expected and actual types. -/
def inferLoop (n : Nat) : Vars → List Ptr → List Ptr → Heap → R (Heap × (Vars × Bool))
  | vars, a :: as, b :: bs, h => do
    let (h, vars, ok) ← typesEqual n [] h vars a b
    let (h, vars, ok') ← inferLoop n vars as bs h
    return (h, vars, ok && ok')
  | vars, _, _, h => return (h, vars, true)

/-- typecheck.c:928-947: the application to the inferred types. -/
def applyVars (n : Nat) : Ptr × Tc → Vars → TM (Option (Ptr × Tc))
  | result, [] => return some result
  | _, (_, none) :: _ => return none
  | result, (_, some t) :: vars => do
    let argType ← alloc (.type t)
    match ← polyApply n result argType with
    | none => return none
    | some result => applyVars n result vars

/-- typecheck.c:901-970 `TypeInferArgs`, for a poly that is not NULL. -/
def typeInferArgs (n : Nat) (vars : Vars) (expected : List Ptr) (actual : List Ptr) (poly : Ptr × Tc) :
    TM (Option (Ptr × Tc)) := do
  if expected.length ≠ actual.length then return none
  else
    let (vars, ok) ← liftH (inferLoop n vars expected actual)
    if !ok then return none
    else applyVars n poly vars

/-- The vector of the given expressions. -/
def toTcs : List Tc → Tcs
  | [] => .nil
  | t :: ts => .cons t (toTcs ts)

/-- The vector of the given branches. -/
def toBrs : List (Nat × Tc) → Brs
  | [] => .nil
  | (i, t) :: bs => .cons i t (toBrs bs)

/-- Does a name occur twice? -/
def dupNames : List Name → Bool
  | [] => false
  | x :: xs => xs.any (namesEqual x) || dupNames xs

/-- An expression is checked in the current scope. -/
abbrev Rec := Expr → TM (Option (Ptr × Tc))

/-- A type is checked in the current scope. -/
abbrev RecT := Expr → TM (Option Ptr)

/-- Checks all expressions, going on after errors. -/
def tcEach (rec : Rec) : List Expr → TM (List (Option (Ptr × Tc)))
  | [] => return []
  | e :: es => do
    let r ← rec e
    let rs ← tcEach rec es
    return r :: rs

/-- The results if there was no error. -/
def allSome {α : Type} : List (Option α) → Option (List α)
  | [] => some []
  | none :: _ => none
  | some a :: as => (allSome as).map (a :: ·)

/-! ### Let -/

/-- typecheck.c:1068-1121: the types of the bindings. `prev` are the names of the bindings before. -/
def bindTypes (n : Nat) (recT : RecT) : List Name → List Binding → TM (Option (List Ptr))
  | _, [] => return some []
  | prev, b :: bs => do
    let t ← (match b.ann with
      | .inl k => do
        let t ← liftH (newVarType · (.basic (kindLevel k)))
        return some t
      | .inr e => recT e : TM (Option Ptr))
    let ok ← (match t with
      | none => return false
      | some t => checkNameSpace n b.name t : TM Bool)
    let ts ← bindTypes n recT (b.name :: prev) bs
    match t, ts with
    | some t, some ts => return if ok && !prev.any (namesEqual b.name) then some (t :: ts) else none
    | _, _ => return none

/-- typecheck.c:1123-1127 -/
def pushLocals : List Name → List Ptr → TM Unit
  | x :: xs, t :: ts => do
    pushLocal (.normal x) t
    pushLocals xs ts
  | _, _ => return ()

/-- typecheck.c:1201-1203 -/
def popLocals : Nat → TM Unit
  | 0 => return ()
  | n + 1 => do
    popLocal
    popLocals n

/-- typecheck.c:1129-1160: the values of the bindings.  After an error no further binding is
checked. -/
def bindDefs (n : Nat) (rec : Rec) : List Binding → List Ptr → TM (Option (List (Ptr × Tc)))
  | b :: bs, t :: ts => do
    match ← rec b.expr with
    | none => return none
    | some (dt, tc) =>
      let ok ← (match b.ann with
        | .inr _ => readH (fbleTypesEqual n · t dt)
        | .inl k => do
          let actual ← readH (getKind n · dt)
          return kindsEqual k actual : TM Bool)
      if !ok then return none
      else match ← bindDefs n rec bs ts with
        | none => return none
        | some ds => return some ((dt, tc) :: ds)
  | _, _ => return some []

/-- typecheck.c:1162-1166: is one of the last `k` variables used? -/
def anyUsed (k : Nat) : TM Bool := onScope fun sc => (sc, (sc.locals.take k).any (·.used))

/-- typecheck.c:1168-1190: the types that were not given; the result is the types of the
variables. -/
def bindAssign (n : Nat) : List Binding → List Ptr → List Ptr → TM (List Ptr)
  | b :: bs, t :: ts, d :: ds => do
    let t ← (match b.ann with
      | .inr _ => return t
      | .inl k => do
        let _ ← liftH (fun h => do return (← assignVarType n h t d, ()))
        return if kindLevel k = 0 then d else t : TM Ptr)
    let ts ← bindAssign n bs ts ds
    return t :: ts
  | _, _, _ => return []

/-- New types for the first variables of a list. -/
def retype : List Ptr → List V → List V
  | t :: ts, v :: vs => { v with type := t } :: retype ts vs
  | _, vs => vs

/-- typecheck.c:1184: the types of the variables of a let. -/
def setTypes (ts : List Ptr) : TM Unit := onScope fun sc => ({ sc with locals := retype ts.reverse sc.locals }, ())

/-- typecheck.c:1192-1200 -/
def anyVacuous (n : Nat) : List Ptr → TM Bool
  | [] => return false
  | t :: ts => do
    let b ← liftH (typeIsVacuous n · t)
    let bs ← anyVacuous n ts
    return b || bs

/-- typecheck.c:1129-1199: what is done with the variables of the let in scope.  After an error the
code still looks for vacuous types among the bindings before; here that is left out. -/
def letInner (n : Nat) (rec : Rec) (bs : List Binding) (ts : List Ptr) (body : Expr) : TM (Option (Ptr × Tc)) := do
  match ← bindDefs n rec bs ts with
  | none => return none
  | some ds =>
    let recursive ← anyUsed bs.length
    let ts ← bindAssign n bs ts (ds.map (·.1))
    setTypes ts
    if ← anyVacuous n ts then return none
    else match ← rec body with
      | none => return none
      | some (t, tc) => return some (t, .letE recursive (toTcs (ds.map (·.2))) tc)

/-- typecheck.c:1062-1225 -/
def tcLet (n : Nat) (rec : Rec) (recT : RecT) (bs : List Binding) (body : Expr) : TM (Option (Ptr × Tc)) := do
  match ← bindTypes n recT [] bs with
  | none => return none
  | some ts =>
    pushLocals (bs.map (·.name)) ts
    let r ← letInner n rec bs ts body
    popLocals bs.length
    return r

/-! ### Structs -/

/-- typecheck.c:1246-1253: the name spaces of the fields. -/
def checkNames (n : Nat) : List (Name × Option (Ptr × Tc)) → TM Bool
  | [] => return true
  | (_, none) :: rs => do
    let _ ← checkNames n rs
    return false
  | (x, some (t, _)) :: rs => do
    let ok ← checkNameSpace n x t
    let oks ← checkNames n rs
    return ok && oks

/-- typecheck.c:1227-1289; the type is allocated at the end, its address has no meaning. -/
def tcStruct (n : Nat) (rec : Rec) (args : List (Name × Expr)) : TM (Option (Ptr × Tc)) := do
  let rs ← tcEach rec (args.map (·.2)).reverse
  let rs := rs.reverse
  let ok ← checkNames n ((args.map (·.1)).zip rs)
  match allSome rs with
  | none => return none
  | some rs =>
    if !ok || dupNames (args.map (·.1)) then return none
    else
      let t ← alloc (.data .struct ((args.map (·.1)).zip (rs.map (·.1))))
      return some (t, .struct (toTcs (rs.map (·.2))))

/-- typecheck.c:1325-1348: where the fields are taken from.  The use of an argument that failed to
type check is the use of a null pointer. -/
def copyLoop (n : Nat) : List (Name × Ptr) → List (Name × Option (Ptr × Tc)) → TM (Flds × Bool)
  | [], args => return (.nil, args.isEmpty)
  | (x, ft) :: fs, (y, r) :: args =>
    if namesEqual y x then
      match r with
      | none => crash
      | some (t, tc) => do
        let eq ← readH (fbleTypesEqual n · ft t)
        let (fl, ok) ← copyLoop n fs args
        return (.set tc fl, eq && ok)
    else do
      let (fl, ok) ← copyLoop n fs ((y, r) :: args)
      return (.keep fl, ok)
  | _ :: fs, [] => do
    let (fl, ok) ← copyLoop n fs []
    return (.keep fl, ok)

/-- typecheck.c:1291-1358 -/
def tcCopy (n : Nat) (rec : Rec) (src : Expr) (args : List (Name × Expr)) : TM (Option (Ptr × Tc)) := do
  match ← rec src with
  | none => return none
  | some (st, stc) =>
    let nt ← liftH (normalType n · st)
    match ← readH (get · nt) with
    | .data .struct fields =>
      let rs ← tcEach rec (args.map (·.2)).reverse
      let rs := rs.reverse
      let (fl, ok) ← copyLoop n fields ((args.map (·.1)).zip rs)
      if !ok || (allSome rs).isNone then return none
      else return some (nt, .copy stc fl)
    | _ => return none

/-! ### Unions -/

/-- typecheck.c:1382-1391, 1921-1934: the first field of that name. -/
def findField (x : Name) : List (Name × Ptr) → Nat → Option (Nat × Ptr)
  | [], _ => none
  | (y, t) :: fs, i => if namesEqual y x then some (i, t) else findField x fs (i + 1)

/-- typecheck.c:1360-1427.  The code reads `datatype` without having checked that the type is a
struct or union type; what it finds in other types is half of a pointer, which is not
FBLE_UNION_DATATYPE. -/
def tcUnion (n : Nat) (rec : Rec) (recT : RecT) (type : Expr) (field : Name) (arg : Expr) : TM (Option (Ptr × Tc)) := do
  match ← recT type with
  | none => return none
  | some t =>
    let (ut, vars) ← liftH (depoly n · t)
    match ← readH (get · ut) with
    | .data .union fields =>
      match findField field fields 0 with
      | none => return none
      | some (tag, ft) =>
        match ← rec arg with
        | none => return none
        | some (argT, argTc) =>
          match ← typeInferArgs n vars [ft] [argT] (t, .struct .nil) with
          | none => return none
          | some (pt, _) => return some (pt, .union tag argTc)
    | _ => return none

/-- The state at the end of the loop over the fields of a union. -/
structure SelRes where
  error : Bool
  branches : List (Nat × Tc)
  defaultUsed : Bool
  rtype : Option Ptr

/-- typecheck.c:1470-1516: the loop over the fields of the union from field `i` on, with the choices
not used yet. -/
def selLoop (n : Nat) (rec : Rec) (hasDefault : Bool) : List (Name × Ptr) → Nat → List (Name × Expr) → Option Ptr → TM SelRes
  | [], _, choices, rt => return ⟨!choices.isEmpty, [], false, rt⟩
  | (x, _) :: fs, i, (y, e) :: choices, rt =>
    if namesEqual y x then do
      let r ← rec e
      match r, rt with
      | none, _ =>
        let q ← selLoop n rec hasDefault fs (i + 1) choices rt
        return { q with error := true }
      | some (t, tc), none =>
        let q ← selLoop n rec hasDefault fs (i + 1) choices (some t)
        return { q with branches := (i, tc) :: q.branches }
      | some (t, tc), some rt =>
        let eq ← readH (fbleTypesEqual n · rt t)
        let q ← selLoop n rec hasDefault fs (i + 1) choices (some rt)
        return { q with error := q.error || !eq, branches := (i, tc) :: q.branches }
    else do
      let q ← selLoop n rec hasDefault fs (i + 1) ((y, e) :: choices) rt
      return if hasDefault then { q with defaultUsed := true } else { q with error := true }
  | _ :: fs, i, [], rt => do
    let q ← selLoop n rec hasDefault fs (i + 1) [] rt
    return if hasDefault then { q with defaultUsed := true } else { q with error := true }

/-- typecheck.c:1429-1540 -/
def tcSelect (n : Nat) (rec : Rec) (condition : Expr) (choices : List (Name × Expr)) (default : Option Expr) :
    TM (Option (Ptr × Tc)) := do
  match ← rec condition with
  | none => return none
  | some (ct, ctc) =>
    let nt ← liftH (normalType n · ct)
    match ← readH (get · nt) with
    | .data .union fields =>
      let d ← (match default with
        | none => return none
        | some e => rec e : TM (Option (Ptr × Tc)))
      let q ← selLoop n rec default.isSome fields 0 choices (d.map (·.1))
      if q.error || (default.isSome && d.isNone) then return none
      else match q.rtype with
        | none => crash
        | some rt =>
          if q.defaultUsed then
            match d with
            | none => crash
            | some (_, dtc) => return some (rt, .select ctc fields.length (toBrs q.branches) dtc)
          else
            match q.branches.getLast? with
            | none => crash
            | some (_, last) => return some (rt, .select ctc fields.length (toBrs q.branches.dropLast) last)
    | _ => return none

/-! ### Functions and polymorphic values -/

/-- typecheck.c:1542-1603 -/
def tcFunc (rec : Rec) (recT : RecT) (x : Name) (type body : Expr) : TM (Option (Ptr × Tc)) := do
  match ← recT type with
  | none => return none
  | some argT =>
    pushScope (initScope (some []) [(.normal x, argT)])
    let r ← rec body
    let sc ← popScope
    match r with
    | none => return none
    | some (t, tc) =>
      let ft ← alloc (.func argT t)
      return some (ft, .func (sc.captured.getD []) tc)

/-- typecheck.c:1605-1640 -/
def tcPoly (n : Nat) (rec : Rec) (x : Name) (kind : Kind) (body : Expr) : TM (Option (Ptr × Tc)) := do
  if kindLevel kind ≠ 1 then return none
  else if !x.isType then return none
  else
    let argType ← liftH (newVarType · kind)
    match ← readH (valueOfType · argType) with
    | none => crash
    | some arg =>
      pushLocalType (.normal x) argType
      let r ← rec body
      popLocal
      match r with
      | none => return none
      | some (t, tc) =>
        let pt ← liftH (newPolyType n · arg t)
        return some (pt, tc)

/-- typecheck.c:2109-2120 `TypeCheckExprForType`. -/
def exprForType (rec : Rec) (e : Expr) : TM (Option Ptr) := do
  pushScope (initScope none [])
  let r ← rec e
  let _ ← popScope
  return r.map (·.1)

/-- typecheck.c:1642-1650, with the checks for NULL of `PolyApply` (typecheck.c:805-812). -/
def tcPolyApply (n : Nat) (rec : Rec) (poly arg : Expr) : TM (Option (Ptr × Tc)) := do
  let p ← rec poly
  let a ← exprForType rec arg
  match p, a with
  | some p, some a => polyApply n p a
  | _, _ => return none

/-! ### Lists and literals -/

/-- typecheck.c:1652-1717 -/
def tcList (n : Nat) (rec : Rec) (func : Expr) (args : List Expr) : TM (Option (Ptr × Tc)) := do
  match ← rec func with
  | none => return none
  | some f =>
    let (ft, vars) ← liftH (depoly n · f.1)
    match ← readH (get · ft) with
    | .func argT _ =>
      match ← readH (listElementType n · argT) with
      | none => return none
      | some elem =>
        let rs ← tcEach rec args
        match allSome rs with
        | none => return none
        | some rs =>
          match ← typeInferArgs n vars (rs.map fun _ => elem) (rs.map (·.1)) f with
          | none => return none
          | some (pt, ptc) =>
            let it ← liftH (normalType n · pt)
            match ← readH (get · it) with
            | .func _ rtype => return some (rtype, .apply ptc (.list (toTcs (rs.map (·.2)))))
            | _ => crash
    | _ => return none

/-- typecheck.c:1765-1774: the loop over the fields from field `j` on; `best` is the length of the
longest match so far and its field. -/
def matchLoop (word : List Char) : List (Name × Ptr) → Nat → Nat × Nat → Nat × Nat
  | [], _, best => best
  | (x, _) :: fs, j, best =>
    if x.str.length > best.1 && x.str.isPrefixOf word then matchLoop word fs (j + 1) (x.str.length, j)
    else matchLoop word fs (j + 1) best

/-- typecheck.c:1763-1799: the letters of a word; the first number bounds the iterations, of which
each takes at least one character. -/
def letters (n : Nat) (unit : Ptr) (fields : List (Name × Ptr)) : Nat → List Char → TM (Option (List Nat))
  | 0, word => return if word.isEmpty then some [] else none
  | k + 1, word =>
    if word.isEmpty then return some []
    else
      let best := matchLoop word fields 0 (0, 0)
      if best.1 = 0 then return none
      else do
        match fields[best.2]? with
        | none => crash
        | some (_, ft) =>
          if !(← readH (fbleTypesEqual n · unit ft)) then return none
          else match ← letters n unit fields k (word.drop best.1) with
            | none => return none
            | some ls => return some (best.2 :: ls)

/-- typecheck.c:1719-1811 -/
def tcLiteral (n : Nat) (rec : Rec) (func : Expr) (word : List Char) : TM (Option (Ptr × Tc)) := do
  match ← rec func with
  | none => return none
  | some (ft, ftc) =>
    let nt ← liftH (normalType n · ft)
    match ← readH (get · nt) with
    | .func argT rtype =>
      match ← readH (listElementType n · argT) with
      | none => return none
      | some elem =>
        let et ← liftH (normalType n · elem)
        match ← readH (get · et) with
        | .data .union fields =>
          let unit ← alloc (.data .struct [])
          match ← letters n unit fields word.length word with
          | none => return none
          | some ls => return some (rtype, .apply ftc (.literal ls))
        | _ => return none
    | _ => return none

/-! ### Abstract types -/

/-- typecheck.c:1852-1854: the comparison for a cast, with the package at address `p` opened. -/
def castEqual (n : Nat) (p target value : Ptr) (h : Heap) : R Bool := do
  match ← get h p with
  | .package path true => fbleTypesEqual n (h.set p (.package path false)) target value
  | _ => .fail

/-- typecheck.c:1813-1862 -/
def tcCast (M : List Name) (n : Nat) (rec : Rec) (recT : RecT) (package target value : Expr) : TM (Option (Ptr × Tc)) := do
  match ← recT package with
  | none => return none
  | some pt =>
    let p ← liftH (normalType n · pt)
    match ← readH (get · p) with
    | .package path _ =>
      match ← recT target with
      | none => return none
      | some t =>
        match ← rec value with
        | none => return none
        | some (vt, vtc) =>
          if !belongsToPackage M path then return none
          else if ← readH (castEqual n p t vt) then return some (t, vtc)
          else return none
    | _ => return none

/-- typecheck.c:1864-1888 -/
def tcAbstractAccess (M : List Name) (n : Nat) (rec : Rec) (value : Expr) : TM (Option (Ptr × Tc)) := do
  match ← rec value with
  | none => return none
  | some (vt, vtc) =>
    let a ← liftH (normalType n · vt)
    match ← readH (get · a) with
    | .abstract p t =>
      match ← readH (get · p) with
      | .package path _ => if !belongsToPackage M path then return none else return some (t, vtc)
      | _ => crash
    | _ => return none

/-! ### Access and application -/

/-- typecheck.c:1905-1940 -/
def tcAccess (n : Nat) (rec : Rec) (object : Expr) (field : Name) : TM (Option (Ptr × Tc)) := do
  match ← rec object with
  | none => return none
  | some (ot, otc) =>
    let nt ← liftH (normalType n · ot)
    match ← readH (get · nt) with
    | .data dt fields =>
      match findField field fields 0 with
      | none => return none
      | some (tag, ft) => return some (ft, .access (dt == .union) otc tag)
    | _ => return none

/-- typecheck.c:2034-2076: application to arguments one at a time. -/
def applyLoop (n : Nat) : Ptr × Tc → List (Ptr × Tc) → TM (Option (Ptr × Tc))
  | result, [] => return some result
  | result, a :: args => do
    let (pbody, vars) ← liftH (depoly n · result.1)
    match ← readH (get · pbody) with
    | .func argT _ =>
      match ← typeInferArgs n vars [argT] [a.1] result with
      | none => return none
      | some (pt, ptc) =>
        let ft ← liftH (normalType n · pt)
        match ← readH (get · ft) with
        | .func _ rtype => applyLoop n (rtype, .apply ptc a.2) args
        | _ => crash
    | _ => return none

/-- typecheck.c:1968-2030: application of a type. -/
def applyType (M : List Name) (n : Nat) (misc : Ptr × Tc) (vtype : Ptr) (args : List (Ptr × Tc)) : TM (Option (Ptr × Tc)) := do
  let vnorm ← liftH (normalType n · vtype)
  match ← readH (get · vnorm) with
  | .package path _ =>
    match args with
    | [a] =>
      if !belongsToPackage M path then return none
      else
        let t ← alloc (.abstract vnorm a.1)
        return some (t, a.2)
    | _ => return none
  | _ =>
    let (st, vars) ← liftH (depoly n · vtype)
    match ← readH (get · st) with
    | .data .struct fields =>
      match ← typeInferArgs n vars (fields.map (·.2)) (args.map (·.1)) (vtype, misc.2) with
      | none => return none
      | some (pt, _) => return some (pt, .struct (toTcs (args.map (·.2))))
    | _ => applyLoop n misc args

/-- typecheck.c:1942-2078 -/
def tcApply (M : List Name) (n : Nat) (rec : Rec) (misc : Expr) (args : List Expr) (bind : Bool) : TM (Option (Ptr × Tc)) := do
  let m ← rec misc
  let rs ← tcEach rec args
  match m, allSome rs with
  | some m, some args =>
    let nmisc ← liftH (normalType n · m.1)
    match ← readH (get · nmisc) with
    | .type vtype => if bind then applyLoop n m args else applyType M n m vtype args
    | _ => applyLoop n m args
  | _, _ => return none

/-! ### Types -/

/-- typecheck.c:2181-2212: the fields of a struct or union type.  `prev` are the names of the fields
before. -/
def dataFields (n : Nat) (recT : RecT) : List Name → List (Name × Expr) → TM (Option (List (Name × Ptr)))
  | _, [] => return some []
  | prev, (x, e) :: fs => do
    match ← recT e with
    | none => return none
    | some t =>
      if !(← checkNameSpace n x t) then return none
      else if prev.any (namesEqual x) then return none
      else match ← dataFields n recT (x :: prev) fs with
        | none => return none
        | some fs => return some ((x, t) :: fs)

/-- typecheck.c:2215-2233 -/
def tcFuncType (recT : RecT) (arg rtype : Expr) : TM (Option Ptr) := do
  let a ← recT arg
  let r ← recT rtype
  match a, r with
  | some a, some r =>
    let t ← alloc (.func a r)
    return some t
  | _, _ => return none

/-- typecheck.c:1022-1039: a type as an expression. -/
def typeAsExpr (recT : RecT) (e : Expr) : TM (Option (Ptr × Tc)) := do
  match ← recT e with
  | none => return none
  | some t =>
    let tt ← alloc (.type t)
    return some (tt, .typeVal)

/-- typecheck.c:1041-1060, 1890-1903. -/
def tcVar (x : VarName) : TM (Option (Ptr × Tc)) := do
  match ← lookup x with
  | none =>
    match x with
    | .normal _ => return none
    | .module _ => crash
  | some v =>
    match v.var with
    | none => return some (v.type, .typeVal)
    | some var => return some (v.type, .var var)

/-- typecheck.c:2242-2270: an expression as a type. -/
def exprAsType (rec : Rec) (e : Expr) : TM (Option Ptr) := do
  match ← exprForType rec e with
  | none => return none
  | some t => readH (valueOfType · t)

mutual
/-- typecheck.c:989-2086 `TypeCheckExpr`, `TypeCheckExprWithCleaner`, in a module with path `M`. -/
def tcExpr (M : List Name) : Nat → Expr → TM (Option (Ptr × Tc))
  | 0, _ => fun _ => .more
  | n + 1, e =>
    match e with
    | .dataType .. => typeAsExpr (tcType M n) e
    | .funcType .. => typeAsExpr (tcType M n) e
    | .packageType .. => typeAsExpr (tcType M n) e
    | .typeOf .. => typeAsExpr (tcType M n) e
    | .var x => tcVar (.normal x)
    | .modulePath path => tcVar (.module path)
    | .letE bindings body => tcLet n (tcExpr M n) (tcType M n) bindings.toList body
    | .structImplicit args => tcStruct n (tcExpr M n) args.toList
    | .structCopy src args => tcCopy n (tcExpr M n) src args.toList
    | .unionValue type field arg => tcUnion n (tcExpr M n) (tcType M n) type field arg
    | .select condition choices default => tcSelect n (tcExpr M n) condition choices.toList default.toOption
    | .func x type body => tcFunc (tcExpr M n) (tcType M n) x type body
    | .polyValue x kind body => tcPoly n (tcExpr M n) x kind body
    | .polyApply poly arg => tcPolyApply n (tcExpr M n) poly arg
    | .list func args => tcList n (tcExpr M n) func args.toList
    | .literal func word => tcLiteral n (tcExpr M n) func word
    | .abstractCast package target value => tcCast M n (tcExpr M n) (tcType M n) package target value
    | .abstractAccess value => tcAbstractAccess M n (tcExpr M n) value
    | .dataAccess object field => tcAccess n (tcExpr M n) object field
    | .apply misc args bind => tcApply M n (tcExpr M n) misc args.toList bind
/-- typecheck.c:2137-2276 `TypeCheckType`, `TypeCheckTypeWithCleaner`. -/
def tcType (M : List Name) : Nat → Expr → TM (Option Ptr)
  | 0, _ => fun _ => .more
  | n + 1, e =>
    match e with
    | .typeOf e => exprForType (tcExpr M n) e
    | .dataType dt fields => do
      match ← dataFields n (tcType M n) [] fields.toList with
      | none => return none
      | some fs => some <$> alloc (.data dt fs)
    | .funcType arg rtype => tcFuncType (tcType M n) arg rtype
    | .packageType path => some <$> alloc (.package path true)
    | e => exprAsType (tcExpr M n) e
end

/-! ### Modules and programs -/

/-- A loaded module (fble-load.h `FbleLoadedModule`): its path, the paths of the modules it refers to
and its expression.  `type` is not modelled: nothing gives one. -/
structure Module where
  path : List Name
  deps : List (List Name)
  value : Expr

/-- typecheck.c:2302-2358 `TypeCheckModule`, without `module->type`. -/
def tcModule (n : Nat) (m : Module) (deps : List Ptr) (h : Heap) : R (Heap × Option (Ptr × Tc)) := do
  let (s, r) ← tcExpr m.path n m.value ⟨h, [initScope none ((m.deps.map VarName.module).zip deps)]⟩
  return (s.heap, r)

/-- typecheck.c:2390-2396: the position of an earlier module. -/
def findModule (path : List Name) : List Module → Option Nat
  | [] => none
  | m :: ms => if pathsEqual path m.path then some 0 else (findModule path ms).map (· + 1)

/-- typecheck.c:2388-2402: the types of the modules referred to; NULL if one of them is missing or
has an error. -/
def depTypes (earlier : List Module) (types : List (Option Ptr)) : List (List Name) → Option (List Ptr)
  | [] => some []
  | d :: ds =>
    match findModule d earlier with
    | none => none
    | some i =>
      match types[i]? with
      | some (some t) => (depTypes earlier types ds).map (t :: ·)
      | _ => none

/-- typecheck.c:2385-2414: the loop over the modules; `done` are the modules before. -/
def tcModules (n : Nat) : List Module → List (Option Ptr) → List Module → Heap → R (List (Option Tc))
  | _, _, [], _ => return []
  | done, types, m :: ms, h => do
    let (h, r) ← (match depTypes done types m.deps with
      | none => .ok (h, none)
      | some deps => tcModule n m deps h : R (Heap × Option (Ptr × Tc)))
    let rs ← tcModules n (done ++ [m]) (types ++ [r.map (·.1)]) ms h
    return r.map (·.2) :: rs

/-- typecheck.c:2377-2430 `FbleTypeCheckProgram`. -/
def tcProgram (n : Nat) (program : List Module) : R (Option (List Tc)) := do
  let rs ← tcModules n [] [] program []
  return allSome rs

end Verif.Elab
