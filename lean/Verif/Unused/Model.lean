import Verif.Elab.Expr
/-
Warnings about unused variables: /repo/lib/unused.c.
-/
namespace Verif.Unused
open Types (Name Kind DataKind namesEqual)
open Elab

/-- A warning printed.  In place of the source location of the name there is the place of the
expression that binds it, see `At`, and for a let which of its bindings it is. -/
inductive Warning where
  /-- unused.c:101-107 "variable … defined but not used" -/
  | binding (place : List Nat) (i : Nat) (x : Name)
  /-- unused.c:157-161 "argument … is unused" -/
  | argument (place : List Nat) (x : Name)
  deriving DecidableEq

/-- The warning, seen from the expression around. -/
def Warning.within (place : List Nat) : Warning → Warning
  | .binding p i x => .binding (place ++ p) i x
  | .argument p x => .argument (place ++ p) x

/-- unused.c:16-20 `Vars`: name and used, the innermost variable first. -/
abbrev Vars := List (Name × Bool)

/-- What `Expr(expr, vars)` does: the variables after and the warnings printed. -/
abbrev Visit := Vars → Vars × List Warning

def skip : Visit := fun vars => (vars, [])

/-- One visit and then another. -/
def Visit.andThen (v w : Visit) : Visit := fun vars =>
  let (vars, ws) := v vars
  let (vars, ws') := w vars
  (vars, ws ++ ws')

def Visit.within (v : Visit) (place : List Nat) : Visit := fun vars =>
  let (vars, ws) := v vars
  (vars, ws.map (Warning.within place))

/-- unused.c:65-70 -/
def mark (x : Name) : Vars → Vars
  | [] => []
  | v :: vars => if namesEqual x v.1 then (v.1, true) :: vars else v :: mark x vars

/-- unused.c:82, 154: does the name begin with an underscore? -/
def underscore (x : Name) : Bool := x.str.head? == some '_'

/-- unused.c:76-86: the new variables of a let; the last binding is the innermost. -/
def letVars (xs : List Name) : Vars := (xs.map fun x => (x, underscore x)).reverse

/-- `nvars[v].used` of a let with `varc` bindings. -/
def used (varc : Nat) (vars : Vars) (v : Nat) : Bool := ((vars[varc - 1 - v]?).map (·.2)).getD false

/-- unused.c:90-99: the loop over the bindings; `n` is at least the number of bindings not yet
processed.  `v = 0` after a binding is processed means the first one is taken each time. -/
def work (varc : Nat) (visits : List Visit) : Nat → List Nat → Visit
  | 0, _ => skip
  | n + 1, processed => fun vars =>
    match (List.range varc).find? (fun v => used varc vars v && !processed.contains v) with
    | none => (vars, [])
    | some v => ((visits[v]?.getD skip).andThen (work varc visits n (v :: processed))) vars

/-- unused.c:101-107 -/
def unusedBindings (varc : Nat) (xs : List Name) (vars : Vars) : List Warning :=
  (List.range varc).filterMap fun i => if used varc vars i then none else xs[i]?.map (.binding [] i)

/-- The names of the bindings. -/
def bindNames : Binds → List Name
  | .nil => []
  | .kind _ x _ rest => x :: bindNames rest
  | .type _ x _ rest => x :: bindNames rest

mutual
/-- unused.c:31-230 `Expr`. -/
def expr : Expr → Visit
  | .dataType _ fields => tagged 0 fields
  | .funcType arg rtype => ((expr arg).within [0, 0]).andThen ((expr rtype).within [0, 1])
  | .packageType _ => skip
  | .typeOf e => (expr e).within [0, 0]
  | .var x => fun vars => (mark x vars, [])
  | .letE bindings body => fun vars =>
    let xs := bindNames bindings
    let (vars, w1) := types 0 bindings vars
    let (nvars, w2) := (((expr body).within [1]).andThen (work xs.length (exprsOf 0 bindings) xs.length [])) (letVars xs ++ vars)
    (nvars.drop xs.length, w1 ++ w2 ++ unusedBindings xs.length xs nvars)
  | .structImplicit args => tagged 0 args
  | .structCopy src args => ((expr src).within [0, 0]).andThen (tagged 1 args)
  | .unionValue type _ arg => ((expr type).within [0, 0]).andThen ((expr arg).within [0, 1])
  | .select condition choices default =>
    (((expr condition).within [0, 0]).andThen (tagged 1 choices)).andThen (defaultE (choices.toList.length + 1) default)
  | .func x type body => fun vars =>
    let (vars, w1) := (expr type).within [0, 0] vars
    let (nvars, w2) := (expr body).within [1] ((x, underscore x) :: vars)
    (nvars.drop 1, w1 ++ w2 ++ (if used 1 nvars 0 then [] else [.argument [] x]))
  | .polyValue x _ body => fun vars =>
    let (nvars, w) := (expr body).within [1] ((x, false) :: vars)
    (nvars.drop 1, w)
  | .polyApply poly arg => ((expr poly).within [0, 0]).andThen ((expr arg).within [0, 1])
  | .list func args => ((expr func).within [0, 0]).andThen (exprs 1 args)
  | .literal func _ => (expr func).within [0, 0]
  | .abstractCast package target value =>
    (((expr package).within [0, 0]).andThen ((expr target).within [0, 1])).andThen ((expr value).within [0, 2])
  | .abstractAccess value => (expr value).within [0, 0]
  | .modulePath _ => skip
  | .dataAccess object _ => (expr object).within [0, 0]
  | .apply misc args _ => ((expr misc).within [0, 0]).andThen (exprs 1 args)
/-- unused.c:187-189, 221-223: a loop over expressions; `k` counts the parts of the expression. -/
def exprs (k : Nat) : Exprs → Visit
  | .nil => skip
  | .cons e es => ((expr e).within [0, k]).andThen (exprs (k + 1) es)
/-- unused.c:40-42, 113-115, 122-124, 138-140 -/
def tagged (k : Nat) : Tagged → Visit
  | .nil => skip
  | .cons _ e rest => ((expr e).within [0, k]).andThen (tagged (k + 1) rest)
/-- unused.c:141, 33-35: the default may be NULL. -/
def defaultE (k : Nat) : Default → Visit
  | .none => skip
  | .some e => (expr e).within [0, k]
/-- unused.c:79-80, 33-35: the types of the bindings; NULL if a kind is given. -/
def types (k : Nat) : Binds → Visit
  | .nil => skip
  | .kind _ _ _ rest => types k rest
  | .type t _ _ rest => ((expr t).within [0, k]).andThen (types (k + 1) rest)
/-- unused.c:94: the visits of the bindings. -/
def exprsOf (i : Nat) : Binds → List Visit
  | .nil => []
  | .kind _ _ e rest => (expr e).within [2, i] :: exprsOf (i + 1) rest
  | .type _ _ e rest => (expr e).within [2, i] :: exprsOf (i + 1) rest
end

/-- unused.c:233-236 `FbleWarnAboutUnusedVars`. -/
def warnings (e : Expr) : List Warning := (expr e []).2

end Verif.Unused
