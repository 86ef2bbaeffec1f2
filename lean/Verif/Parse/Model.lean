import Verif.Parse.Machine
import Verif.Elab.Expr
/-
The actions of the grammar, /repo/lib/parse.y:192-700, and the functions that call the parser.

SIMPLIFIED: source locations are left out; and so are the destructors, which free what an error leaves on the stack.
-/
namespace Verif.Parse
open Text (Token Byte Str toCStr)
open Elab (Expr Exprs Tagged Binds Default Binding)
open Types (Kind)

/-- The names of the tables of `Verif.Elab` are lists of characters. -/
def cname (n : Text.Name) : Types.Name := ⟨n.str.map fun b => Char.ofNat b.toNat, n.space = .type⟩

def cpath (p : Text.Path) : List Types.Name := p.map cname

/-- parse.y:54-68 `YYSTYPE`; `nothing` is for symbols without a type. Names are those of the abstract syntax. -/
inductive Val where
  | nothing
  | word (w : Str)
  | name (n : Types.Name)
  | modulePath (p : Text.Path)
  | kind (k : Kind)
  | kinds (ks : List Kind)
  | taggedKinds (ks : List (Kind × Types.Name))
  | expr (e : Expr)
  | exprs (es : List Expr)
  | taggedType (t : Expr × Types.Name)
  | taggedTypes (ts : List (Expr × Types.Name))
  | taggedExpr (t : Types.Name × Expr)
  | taggedExprs (ts : List (Types.Name × Expr))
  | bindings (bs : List Binding)

/-! `$1`, `$2`, ... as a member of the union. -/

def word (vs : List Val) (i : Nat) : Option Str := match vs[i - 1]? with | some (.word w) => some w | _ => none
def name (vs : List Val) (i : Nat) : Option Types.Name := match vs[i - 1]? with | some (.name n) => some n | _ => none
def path (vs : List Val) (i : Nat) : Option Text.Path := match vs[i - 1]? with | some (.modulePath p) => some p | _ => none
def kind (vs : List Val) (i : Nat) : Option Kind := match vs[i - 1]? with | some (.kind k) => some k | _ => none
def kinds (vs : List Val) (i : Nat) : Option (List Kind) := match vs[i - 1]? with | some (.kinds k) => some k | _ => none
def taggedKinds (vs : List Val) (i : Nat) : Option (List (Kind × Types.Name)) :=
  match vs[i - 1]? with | some (.taggedKinds k) => some k | _ => none
def expr (vs : List Val) (i : Nat) : Option Expr := match vs[i - 1]? with | some (.expr e) => some e | _ => none
def exprs (vs : List Val) (i : Nat) : Option (List Expr) := match vs[i - 1]? with | some (.exprs es) => some es | _ => none
def taggedType (vs : List Val) (i : Nat) : Option (Expr × Types.Name) :=
  match vs[i - 1]? with | some (.taggedType t) => some t | _ => none
def taggedTypes (vs : List Val) (i : Nat) : Option (List (Expr × Types.Name)) :=
  match vs[i - 1]? with | some (.taggedTypes ts) => some ts | _ => none
def taggedExpr (vs : List Val) (i : Nat) : Option (Types.Name × Expr) :=
  match vs[i - 1]? with | some (.taggedExpr t) => some t | _ => none
def taggedExprs (vs : List Val) (i : Nat) : Option (List (Types.Name × Expr)) :=
  match vs[i - 1]? with | some (.taggedExprs ts) => some ts | _ => none
def bindings (vs : List Val) (i : Nat) : Option (List Binding) := match vs[i - 1]? with | some (.bindings bs) => some bs | _ => none

/-! Vectors of the abstract syntax. -/

def exprV : List Expr → Exprs
  | [] => .nil
  | e :: es => .cons e (exprV es)

/-- `FbleTaggedTypeExprV` -/
def typeV : List (Expr × Types.Name) → Tagged
  | [] => .nil
  | (t, x) :: rest => .cons x t (typeV rest)

/-- `FbleTaggedExprV` -/
def taggedV : List (Types.Name × Expr) → Tagged
  | [] => .nil
  | (x, e) :: rest => .cons x e (taggedV rest)

/-- `FbleBindingV` -/
def bindingV : List Binding → Binds
  | [] => .nil
  | ⟨.inl k, x, e⟩ :: rest => .kind k x e (bindingV rest)
  | ⟨.inr t, x, e⟩ :: rest => .type t x e (bindingV rest)

/-- The loops of parse.y:246-255, 267-276. -/
def polyKinds (args : List Kind) (k : Kind) : Kind := args.reverse.foldl (fun kind arg => .poly arg kind) k

/-- The loops of parse.y:501-508, 541-548. -/
def funcValues (args : List (Expr × Types.Name)) (e : Expr) : Expr :=
  args.reverse.foldl (fun expr arg => .func arg.2 arg.1 expr) e

/-- The actions that only compute a value: parse.y:204-700. -/
def value (r : Rule) (vs : List Val) : Option Val :=
  match r with
  | .accept => some .nothing
  | .startProgram => some .nothing
  | .startPath => some .nothing
  | .nameWord => do return .name (cname ⟨toCStr (← word vs 1), .normal⟩)
  | .nameType => do return .name (cname ⟨toCStr (← word vs 1), .type⟩)
  | .pathWord => do return .modulePath [⟨toCStr (← word vs 1), .normal⟩]
  | .pathSlash => do return .modulePath ((← path vs 1) ++ [⟨toCStr (← word vs 3), .normal⟩])
  | .modulePath => do return .modulePath (← path vs 2)
  | .nkindBasic => some (.kind (.basic 0))
  | .nkindPoly => do return .kind (polyKinds (← kinds vs 2) (← kind vs 4))
  | .tkindBasic => some (.kind (.basic 1))
  | .tkindPoly => do return .kind (polyKinds (← kinds vs 2) (← kind vs 4))
  | .kindN => do return .kind (← kind vs 1)
  | .kindT => do return .kind (← kind vs 1)
  | .tkindsOne => do return .kinds [← kind vs 1]
  | .tkindsMore => do return .kinds ((← kinds vs 1) ++ [← kind vs 3])
  | .taggedKindsOne => do return .taggedKinds [(← kind vs 1, ← name vs 2)]
  | .taggedKindsMore => do return .taggedKinds ((← taggedKinds vs 1) ++ [(← kind vs 3, ← name vs 4)])
  | .exprTypeof => do return .expr (.typeOf (← expr vs 3))
  | .exprVar => do return .expr (.var (← name vs 1))
  | .exprModule => do return .expr (.modulePath (cpath (← path vs 1)))
  | .exprStructType => do return .expr (.dataType .struct (typeV (← taggedTypes vs 3)))
  | .exprApply => do return .expr (.apply (← expr vs 1) (exprV (← exprs vs 3)) false)
  | .exprStruct => do return .expr (.structImplicit (taggedV (← taggedExprs vs 3)))
  | .exprAccess => do return .expr (.dataAccess (← expr vs 1) (← name vs 3))
  | .exprCopy => do return .expr (.structCopy (← expr vs 1) (taggedV (← taggedExprs vs 5)))
  | .exprUnionType => do return .expr (.dataType .union (typeV (← taggedTypes vs 3)))
  | .exprPackage => do return .expr (.packageType (cpath (← path vs 3)))
  | .exprPackageNone => some (.expr (.packageType []))
  | .exprUnion => do return .expr (.unionValue (← expr vs 1) (← name vs 3) (← expr vs 5))
  | .exprSelect => do return .expr (.select (← expr vs 1) (taggedV (← taggedExprs vs 5)) .none)
  | .exprSelectDefault => do return .expr (.select (← expr vs 1) (taggedV (← taggedExprs vs 5)) (.some (← expr vs 8)))
  | .exprPolyApply => do return .expr ((← exprs vs 3).foldl (fun poly arg => .polyApply poly arg) (← expr vs 1))
  | .exprAbstractAccess => do return .expr (.abstractAccess (← expr vs 1))
  | .exprCast => do return .expr (.abstractCast (← expr vs 1) (← expr vs 4) (← expr vs 7))
  | .exprList => do return .expr (.list (← expr vs 1) (exprV (← exprs vs 3)))
  | .exprLiteral => do return .expr (.literal (← expr vs 1) ((toCStr (← word vs 3)).map fun b => Char.ofNat b.toNat))
  | .exprBlock => do return .expr (← expr vs 1)
  | .blockStmt => do return .expr (← expr vs 2)
  | .blockFuncType => do return .expr ((← exprs vs 2).reverse.foldl (fun e arg => .funcType arg e) (← expr vs 4))
  | .blockFunc => do return .expr (funcValues (← taggedTypes vs 2) (← expr vs 4))
  | .blockPoly => do
    return .expr ((← taggedKinds vs 2).reverse.foldl (fun e arg => .polyValue arg.2 arg.1 e) (← expr vs 4))
  | .stmtExpr => do return .expr (← expr vs 1)
  | .stmtLet => do return .expr (.letE (bindingV (← bindings vs 1)) (← expr vs 3))
  | .stmtBind => do return .expr (.apply (← expr vs 4) (exprV [funcValues (← taggedTypes vs 1) (← expr vs 6)]) true)
  | .stmtDefault => none -- see `act`
  | .exprsOne => do return .exprs [← expr vs 1]
  | .exprsMore => do return .exprs ((← exprs vs 1) ++ [← expr vs 3])
  | .exprsNone => some (.exprs [])
  | .exprsSome => do return .exprs (← exprs vs 1)
  | .taggedType => do return .taggedType (← expr vs 1, ← name vs 2)
  | .taggedTypesOne => do return .taggedTypes [← taggedType vs 1]
  | .taggedTypesMore => do return .taggedTypes ((← taggedTypes vs 1) ++ [← taggedType vs 3])
  | .taggedTypesNone => some (.taggedTypes [])
  | .taggedTypesSome => do return .taggedTypes (← taggedTypes vs 1)
  | .implicitVar => do return .taggedExpr (← name vs 1, .var (← name vs 1))
  | .implicitColon => do return .taggedExpr (← name vs 1, ← expr vs 3)
  | .implicitsOne => do return .taggedExprs [← taggedExpr vs 1]
  | .implicitsMore => do return .taggedExprs ((← taggedExprs vs 1) ++ [← taggedExpr vs 3])
  | .implicitsNone => some (.taggedExprs [])
  | .implicitsSome => do return .taggedExprs (← taggedExprs vs 1)
  | .taggedExpr => do return .taggedExpr (← name vs 1, ← expr vs 3)
  | .taggedExprsOne => do return .taggedExprs [← taggedExpr vs 1]
  | .taggedExprsMore => do return .taggedExprs ((← taggedExprs vs 1) ++ [← taggedExpr vs 3])
  | .bindType => do return .bindings [⟨.inr (← expr vs 1), ← name vs 2, ← expr vs 4⟩]
  | .bindKind => do return .bindings [⟨.inl (← kind vs 1), ← name vs 2, ← expr vs 4⟩]
  | .bindMoreType => do return .bindings ((← bindings vs 1) ++ [⟨.inr (← expr vs 3), ← name vs 4, ← expr vs 6⟩])
  | .bindMoreKind => do return .bindings ((← bindings vs 1) ++ [⟨.inl (← kind vs 3), ← name vs 4, ← expr vs 6⟩])

/-- `*result` and `*deps`: parse.y:84. -/
structure St where
  result : Option Expr
  deps : List Text.Path

/-- parse.y:332-341 -/
def addDep (deps : List Text.Path) (p : Text.Path) : List Text.Path :=
  if deps.any fun d => Text.pathsEqual d p then deps else deps ++ [p]

/-- The actions. -/
def act (r : Rule) (vs : List Val) (s : St) : ActRes Val St :=
  match r with
  -- parse.y:193-196
  | .startProgram => match expr vs 2 with
    | some e => .ok .nothing { s with result := some e }
    | none => .crash
  -- parse.y:197-200
  | .startPath => match path vs 2 with
    | some p => .ok .nothing { s with deps := s.deps ++ [p] }
    | none => .crash
  -- parse.y:325-342
  | .exprModule => match path vs 1 with
    | some p => .ok (.expr (.modulePath (cpath p))) { s with deps := addDep s.deps p }
    | none => .crash
  -- parse.y:560-572
  | .stmtDefault => match expr vs 1, expr vs 3 with
    | some (.select c cs .none), some d => .ok (.expr (.select c cs (.some d))) s
    | some _, some _ => .yyerror s
    | _, _ => .crash
  | _ => match value r vs with
    | some v => .ok v s
    | none => .crash

/-- The values of tokens: parse.y:884 -/
def tokVal : Tok → Val
  | .lex (.word w) => .word w
  | _ => .nothing

def sem : Sem Val St := ⟨tokVal, act⟩

/-- How a run of `yyparse` ends, and what it leaves in `*result` and `*deps`. -/
def Yyparse (start : Tok) (toks : List Token) (deps : List Text.Path) (o : Out St) : Prop :=
  Ends sem maxDepth ⟨[], start :: toks.map .lex, ⟨none, deps⟩⟩ o

/-- `*result` and `*deps` at the end. -/
def Out.st : Out St → Option St
  | .accepted s => some s
  | .syntaxError s => some s
  | .failed s => some s
  | .exhausted s => some s
  | .crash => none

/-- Does `yyparse` return 0?  Otherwise it has reported an error. -/
def Out.ok {σ : Type} : Out σ → Bool
  | .accepted _ => true
  | _ => false

/-- parse.y:920-940 `FbleParse`, for the tokens of a file that can be opened: the result, the
dependencies added to `deps`, and whether there was no error message.  What `yyparse` returns is
ignored. -/
def FbleParse (toks : List Token) (result : Option Expr) (deps : List Text.Path) (ok : Bool) : Prop :=
  ∃ o s, Yyparse .program toks [] o ∧ o.st = some s ∧ s.result = result ∧ s.deps = deps ∧ o.ok = ok

/-- parse.y:943-970 `FbleParseModulePath`, for the tokens of the string: the result and whether there
was no error message. -/
def FbleParseModulePath (toks : List Token) (result : Option Text.Path) (ok : Bool) : Prop :=
  ∃ o s, Yyparse .modulePath toks [] o ∧ o.st = some s ∧ s.deps.length < 2 ∧ s.deps.head? = result ∧ o.ok = ok

end Verif.Parse
