import Verif.Parse.Lr
import Verif.Elab.Expr
/-
Specification of the syntax of fble: what programs can be written, how they are written, and what
they stand for.  The concrete syntax is that of /repo/lib/parse.y:192-700.
-/
namespace Verif.Parse
open Text (Token Str ch toCStr)
open Elab (Expr Exprs Tagged Binds Default Binding)
open Types (Kind DataKind)

/-! ### Programs as they are written -/

/-- `x` and `x@` -/
inductive SName where
  | normal (w : Str)
  | type (w : Str)

/-- The inside of a module path: `x/y/z` -/
inductive SPath where
  | word (w : Str)
  | slash (p : SPath) (w : Str)

mutual
/-- The kind of a type: `@` and `<k, ...> k` -/
inductive STKind where
  | basic
  | poly (args : STKinds) (r : STKind)
inductive STKinds where
  | one (k : STKind)
  | more (ks : STKinds) (k : STKind)
end

/-- The kind of a value: `%` and `<k, ...> k` -/
inductive SNKind where
  | basic
  | poly (args : STKinds) (r : SNKind)

inductive SKind where
  | n (k : SNKind)
  | t (k : STKind)

/-- `k x, ...` -/
inductive STaggedKinds where
  | one (k : SKind) (x : SName)
  | more (ks : STaggedKinds) (k : SKind) (x : SName)

mutual
inductive SExpr where
  /-- `@<e>` -/
  | typeOf (e : SExpr)
  /-- `x` -/
  | var (x : SName)
  /-- `/x/y%` -/
  | modulePath (p : SPath)
  /-- `*(t x, ...)` -/
  | structType (fields : STypes0)
  /-- `f(e, ...)` -/
  | apply (f : SExpr) (args : SExprs0)
  /-- `@(x: e, ...)` -/
  | struct (args : SImplicits0)
  /-- `e.x` -/
  | access (e : SExpr) (x : SName)
  /-- `e.@(x: e, ...)` -/
  | copy (e : SExpr) (args : SImplicits)
  /-- `+(t x, ...)` -/
  | unionType (fields : STypes)
  /-- `%(/x/y%)` -/
  | package (p : SPath)
  /-- `%()` -/
  | packageNone
  /-- `t(x: e)` -/
  | union (t : SExpr) (x : SName) (e : SExpr)
  /-- `e.?(x: e, ...)` -/
  | select (e : SExpr) (choices : STagged)
  /-- `e.?(x: e, ..., : e)` -/
  | selectDefault (e : SExpr) (choices : STagged) (d : SExpr)
  /-- `e<t, ...>` -/
  | polyApply (e : SExpr) (args : SExprs)
  /-- `e.%` -/
  | abstractAccess (e : SExpr)
  /-- `p.<t>(e)` -/
  | cast (p t e : SExpr)
  /-- `f[e, ...]` -/
  | list (f : SExpr) (args : SExprs0)
  /-- `f|word` -/
  | literal (f : SExpr) (w : Str)
  | block (b : SBlock)
inductive SBlock where
  /-- `{ s }` -/
  | braces (s : SStmt)
  /-- `(t, ...) b` -/
  | funcType (args : SExprs) (b : SBlock)
  /-- `(t x, ...) b` -/
  | func (args : STypes) (b : SBlock)
  /-- `<k x, ...> b` -/
  | poly (args : STaggedKinds) (b : SBlock)
inductive SStmt where
  /-- `e;` -/
  | expr (e : SExpr)
  /-- `t x = e, ...; s` -/
  | letE (bs : SBinds) (s : SStmt)
  /-- `t x, ... <- e; s` -/
  | bind (args : STypes) (e : SExpr) (s : SStmt)
  /-- `e; s` where `e` is a select without a default -/
  | default (e : SExpr) (s : SStmt)
/-- `e, ...` -/
inductive SExprs where
  | one (e : SExpr)
  | more (es : SExprs) (e : SExpr)
inductive SExprs0 where
  | none
  | some (es : SExprs)
/-- `t x` -/
inductive SType where
  | mk (t : SExpr) (x : SName)
inductive STypes where
  | one (t : SType)
  | more (ts : STypes) (t : SType)
inductive STypes0 where
  | none
  | some (ts : STypes)
/-- `x` and `x: e` -/
inductive SImplicit where
  | var (x : SName)
  | colon (x : SName) (e : SExpr)
inductive SImplicits where
  | one (i : SImplicit)
  | more (is : SImplicits) (i : SImplicit)
inductive SImplicits0 where
  | none
  | some (is : SImplicits)
/-- `x: e` -/
inductive STag where
  | mk (x : SName) (e : SExpr)
inductive STagged where
  | one (t : STag)
  | more (ts : STagged) (t : STag)
/-- `t x = e, k x = e, ...` -/
inductive SBinds where
  | type (t : SExpr) (x : SName) (e : SExpr)
  | kind (k : SKind) (x : SName) (e : SExpr)
  | moreType (bs : SBinds) (t : SExpr) (x : SName) (e : SExpr)
  | moreKind (bs : SBinds) (k : SKind) (x : SName) (e : SExpr)
end

/-! ### How they are written: the tokens -/

/-- A punctuation character. -/
abbrev P (c : Char) : Token := .punct (ch c)

def SName.toks : SName → List Token
  | .normal w => [.word w]
  | .type w => [.word w, P '@']

def SPath.inner : SPath → List Token
  | .word w => [.word w]
  | .slash p w => p.inner ++ [P '/', .word w]

def SPath.toks (p : SPath) : List Token := P '/' :: p.inner ++ [P '%']

mutual
def STKind.toks : STKind → List Token
  | .basic => [P '@']
  | .poly as r => P '<' :: as.toks ++ P '>' :: r.toks
def STKinds.toks : STKinds → List Token
  | .one k => k.toks
  | .more ks k => ks.toks ++ P ',' :: k.toks
end

def SNKind.toks : SNKind → List Token
  | .basic => [P '%']
  | .poly as r => P '<' :: as.toks ++ P '>' :: r.toks

def SKind.toks : SKind → List Token
  | .n k => k.toks
  | .t k => k.toks

def STaggedKinds.toks : STaggedKinds → List Token
  | .one k x => k.toks ++ x.toks
  | .more ks k x => ks.toks ++ P ',' :: k.toks ++ x.toks

mutual
def SExpr.toks : SExpr → List Token
  | .typeOf e => [P '@', P '<'] ++ e.toks ++ [P '>']
  | .var x => x.toks
  | .modulePath p => p.toks
  | .structType fs => [P '*', P '('] ++ fs.toks ++ [P ')']
  | .apply f as => f.toks ++ [P '('] ++ as.toks ++ [P ')']
  | .struct as => [P '@', P '('] ++ as.toks ++ [P ')']
  | .access e x => e.toks ++ [P '.'] ++ x.toks
  | .copy e as => e.toks ++ [P '.', P '@', P '('] ++ as.toks ++ [P ')']
  | .unionType fs => [P '+', P '('] ++ fs.toks ++ [P ')']
  | .package p => [P '%', P '('] ++ p.toks ++ [P ')']
  | .packageNone => [P '%', P '(', P ')']
  | .union t x e => t.toks ++ [P '('] ++ x.toks ++ [P ':'] ++ e.toks ++ [P ')']
  | .select e cs => e.toks ++ [P '.', P '?', P '('] ++ cs.toks ++ [P ')']
  | .selectDefault e cs d => e.toks ++ [P '.', P '?', P '('] ++ cs.toks ++ [P ',', P ':'] ++ d.toks ++ [P ')']
  | .polyApply e as => e.toks ++ [P '<'] ++ as.toks ++ [P '>']
  | .abstractAccess e => e.toks ++ [P '.', P '%']
  | .cast p t e => p.toks ++ [P '.', P '<'] ++ t.toks ++ [P '>', P '('] ++ e.toks ++ [P ')']
  | .list f as => f.toks ++ [P '['] ++ as.toks ++ [P ']']
  | .literal f w => f.toks ++ [P '|', .word w]
  | .block b => b.toks
def SBlock.toks : SBlock → List Token
  | .braces s => [P '{'] ++ s.toks ++ [P '}']
  | .funcType as b => [P '('] ++ as.toks ++ [P ')'] ++ b.toks
  | .func as b => [P '('] ++ as.toks ++ [P ')'] ++ b.toks
  | .poly as b => [P '<'] ++ as.toks ++ [P '>'] ++ b.toks
def SStmt.toks : SStmt → List Token
  | .expr e => e.toks ++ [P ';']
  | .letE bs s => bs.toks ++ [P ';'] ++ s.toks
  | .bind as e s => as.toks ++ [P '<', P '-'] ++ e.toks ++ [P ';'] ++ s.toks
  | .default e s => e.toks ++ [P ';'] ++ s.toks
def SExprs.toks : SExprs → List Token
  | .one e => e.toks
  | .more es e => es.toks ++ [P ','] ++ e.toks
def SExprs0.toks : SExprs0 → List Token
  | .none => []
  | .some es => es.toks
def SType.toks : SType → List Token
  | .mk t x => t.toks ++ x.toks
def STypes.toks : STypes → List Token
  | .one t => t.toks
  | .more ts t => ts.toks ++ [P ','] ++ t.toks
def STypes0.toks : STypes0 → List Token
  | .none => []
  | .some ts => ts.toks
def SImplicit.toks : SImplicit → List Token
  | .var x => x.toks
  | .colon x e => x.toks ++ [P ':'] ++ e.toks
def SImplicits.toks : SImplicits → List Token
  | .one i => i.toks
  | .more is i => is.toks ++ [P ','] ++ i.toks
def SImplicits0.toks : SImplicits0 → List Token
  | .none => []
  | .some is => is.toks
def STag.toks : STag → List Token
  | .mk x e => x.toks ++ [P ':'] ++ e.toks
def STagged.toks : STagged → List Token
  | .one t => t.toks
  | .more ts t => ts.toks ++ [P ','] ++ t.toks
def SBinds.toks : SBinds → List Token
  | .type t x e => t.toks ++ x.toks ++ [P '='] ++ e.toks
  | .kind k x e => k.toks ++ x.toks ++ [P '='] ++ e.toks
  | .moreType bs t x e => bs.toks ++ [P ','] ++ t.toks ++ x.toks ++ [P '='] ++ e.toks
  | .moreKind bs k x e => bs.toks ++ [P ','] ++ k.toks ++ x.toks ++ [P '='] ++ e.toks
end

/-! ### What they stand for: the abstract syntax -/

/-- The characters of a word. -/
def chars (w : Str) : List Char := w.map fun b => Char.ofNat b.toNat

/-- The name in the abstract syntax. -/
def astName (n : Text.Name) : Types.Name := ⟨chars n.str, n.space = .type⟩

/-- A word ends at its first NUL character. -/
def SName.name : SName → Text.Name
  | .normal w => ⟨toCStr w, .normal⟩
  | .type w => ⟨toCStr w, .type⟩

def SName.ast (x : SName) : Types.Name := astName x.name

def SPath.path : SPath → Text.Path
  | .word w => [⟨toCStr w, .normal⟩]
  | .slash p w => p.path ++ [⟨toCStr w, .normal⟩]

def astPath (p : Text.Path) : List Types.Name := p.map astName

mutual
/-- A kind with several arguments takes one after the other. -/
def STKind.ast : STKind → Kind
  | .basic => .basic 1
  | .poly as r => as.ast.foldr .poly r.ast
def STKinds.ast : STKinds → List Kind
  | .one k => [k.ast]
  | .more ks k => ks.ast ++ [k.ast]
end

def SNKind.ast : SNKind → Kind
  | .basic => .basic 0
  | .poly as r => as.ast.foldr .poly r.ast

def SKind.ast : SKind → Kind
  | .n k => k.ast
  | .t k => k.ast

def STaggedKinds.ast : STaggedKinds → List (Kind × Types.Name)
  | .one k x => [(k.ast, x.ast)]
  | .more ks k x => ks.ast ++ [(k.ast, x.ast)]

def toExprs : List Expr → Exprs
  | [] => .nil
  | e :: es => .cons e (toExprs es)

def toTagged : List (Types.Name × Expr) → Tagged
  | [] => .nil
  | (x, e) :: rest => .cons x e (toTagged rest)

def toBinds : List Binding → Binds
  | [] => .nil
  | ⟨.inl k, x, e⟩ :: rest => .kind k x e (toBinds rest)
  | ⟨.inr t, x, e⟩ :: rest => .type t x e (toBinds rest)

/-- The statement `e; s`: `s` is the default of the select `e`. -/
def withDefault : Expr → Expr → Option Expr
  | .select c cs .none, d => some (.select c cs (.some d))
  | _, _ => none

/-- A function with several arguments takes one after the other. -/
def funcs (args : List (Types.Name × Expr)) (body : Expr) : Expr := args.foldr (fun a b => .func a.1 a.2 b) body

mutual
/-- `none`: a statement `e; s` where `e` is not a select without default. -/
def SExpr.ast : SExpr → Option Expr
  | .typeOf e => do return .typeOf (← e.ast)
  | .var x => some (.var x.ast)
  | .modulePath p => some (.modulePath (astPath p.path))
  | .structType fs => do return .dataType .struct (toTagged (← fs.ast))
  | .apply f as => do return .apply (← f.ast) (toExprs (← as.ast)) false
  | .struct as => do return .structImplicit (toTagged (← as.ast))
  | .access e x => do return .dataAccess (← e.ast) x.ast
  | .copy e as => do return .structCopy (← e.ast) (toTagged (← as.ast))
  | .unionType fs => do return .dataType .union (toTagged (← fs.ast))
  | .package p => some (.packageType (astPath p.path))
  | .packageNone => some (.packageType [])
  | .union t x e => do return .unionValue (← t.ast) x.ast (← e.ast)
  | .select e cs => do return .select (← e.ast) (toTagged (← cs.ast)) .none
  | .selectDefault e cs d => do return .select (← e.ast) (toTagged (← cs.ast)) (.some (← d.ast))
  | .polyApply e as => do return (← as.ast).foldl .polyApply (← e.ast)
  | .abstractAccess e => do return .abstractAccess (← e.ast)
  | .cast p t e => do return .abstractCast (← p.ast) (← t.ast) (← e.ast)
  | .list f as => do return .list (← f.ast) (toExprs (← as.ast))
  | .literal f w => do return .literal (← f.ast) (chars (toCStr w))
  | .block b => b.ast
def SBlock.ast : SBlock → Option Expr
  | .braces s => s.ast
  | .funcType as b => do return (← as.ast).foldr .funcType (← b.ast)
  | .func as b => do return funcs (← as.ast) (← b.ast)
  | .poly as b => do return as.ast.foldr (fun a b => .polyValue a.2 a.1 b) (← b.ast)
def SStmt.ast : SStmt → Option Expr
  | .expr e => e.ast
  | .letE bs s => do return .letE (toBinds (← bs.ast)) (← s.ast)
  | .bind as e s => do return .apply (← e.ast) (toExprs [funcs (← as.ast) (← s.ast)]) true
  | .default e s => do withDefault (← e.ast) (← s.ast)
def SExprs.ast : SExprs → Option (List Expr)
  | .one e => do return [← e.ast]
  | .more es e => do return (← es.ast) ++ [← e.ast]
def SExprs0.ast : SExprs0 → Option (List Expr)
  | .none => some []
  | .some es => es.ast
def SType.ast : SType → Option (Types.Name × Expr)
  | .mk t x => do return (x.ast, ← t.ast)
def STypes.ast : STypes → Option (List (Types.Name × Expr))
  | .one t => do return [← t.ast]
  | .more ts t => do return (← ts.ast) ++ [← t.ast]
def STypes0.ast : STypes0 → Option (List (Types.Name × Expr))
  | .none => some []
  | .some ts => ts.ast
def SImplicit.ast : SImplicit → Option (Types.Name × Expr)
  | .var x => some (x.ast, .var x.ast)
  | .colon x e => do return (x.ast, ← e.ast)
def SImplicits.ast : SImplicits → Option (List (Types.Name × Expr))
  | .one i => do return [← i.ast]
  | .more is i => do return (← is.ast) ++ [← i.ast]
def SImplicits0.ast : SImplicits0 → Option (List (Types.Name × Expr))
  | .none => some []
  | .some is => is.ast
def STag.ast : STag → Option (Types.Name × Expr)
  | .mk x e => do return (x.ast, ← e.ast)
def STagged.ast : STagged → Option (List (Types.Name × Expr))
  | .one t => do return [← t.ast]
  | .more ts t => do return (← ts.ast) ++ [← t.ast]
def SBinds.ast : SBinds → Option (List Binding)
  | .type t x e => do return [⟨.inr (← t.ast), x.ast, ← e.ast⟩]
  | .kind k x e => do return [⟨.inl k.ast, x.ast, ← e.ast⟩]
  | .moreType bs t x e => do return (← bs.ast) ++ [⟨.inr (← t.ast), x.ast, ← e.ast⟩]
  | .moreKind bs k x e => do return (← bs.ast) ++ [⟨.inl k.ast, x.ast, ← e.ast⟩]
end

/-! ### The modules they refer to, in order -/

mutual
def SExpr.mods : SExpr → List Text.Path
  | .typeOf e => e.mods
  | .var _ => []
  | .modulePath p => [p.path]
  | .structType fs => fs.mods
  | .apply f as => f.mods ++ as.mods
  | .struct as => as.mods
  | .access e _ => e.mods
  | .copy e as => e.mods ++ as.mods
  | .unionType fs => fs.mods
  | .package _ => []
  | .packageNone => []
  | .union t _ e => t.mods ++ e.mods
  | .select e cs => e.mods ++ cs.mods
  | .selectDefault e cs d => e.mods ++ cs.mods ++ d.mods
  | .polyApply e as => e.mods ++ as.mods
  | .abstractAccess e => e.mods
  | .cast p t e => p.mods ++ t.mods ++ e.mods
  | .list f as => f.mods ++ as.mods
  | .literal f _ => f.mods
  | .block b => b.mods
def SBlock.mods : SBlock → List Text.Path
  | .braces s => s.mods
  | .funcType as b => as.mods ++ b.mods
  | .func as b => as.mods ++ b.mods
  | .poly _ b => b.mods
def SStmt.mods : SStmt → List Text.Path
  | .expr e => e.mods
  | .letE bs s => bs.mods ++ s.mods
  | .bind as e s => as.mods ++ e.mods ++ s.mods
  | .default e s => e.mods ++ s.mods
def SExprs.mods : SExprs → List Text.Path
  | .one e => e.mods
  | .more es e => es.mods ++ e.mods
def SExprs0.mods : SExprs0 → List Text.Path
  | .none => []
  | .some es => es.mods
def SType.mods : SType → List Text.Path
  | .mk t _ => t.mods
def STypes.mods : STypes → List Text.Path
  | .one t => t.mods
  | .more ts t => ts.mods ++ t.mods
def STypes0.mods : STypes0 → List Text.Path
  | .none => []
  | .some ts => ts.mods
def SImplicit.mods : SImplicit → List Text.Path
  | .var _ => []
  | .colon _ e => e.mods
def SImplicits.mods : SImplicits → List Text.Path
  | .one i => i.mods
  | .more is i => is.mods ++ i.mods
def SImplicits0.mods : SImplicits0 → List Text.Path
  | .none => []
  | .some is => is.mods
def STag.mods : STag → List Text.Path
  | .mk _ e => e.mods
def STagged.mods : STagged → List Text.Path
  | .one t => t.mods
  | .more ts t => ts.mods ++ t.mods
def SBinds.mods : SBinds → List Text.Path
  | .type t _ e => t.mods ++ e.mods
  | .kind _ _ e => e.mods
  | .moreType bs t _ e => bs.mods ++ t.mods ++ e.mods
  | .moreKind bs _ _ e => bs.mods ++ e.mods
end

/-! ### How high the stack of the parser gets

1 for a token; `depth` for the parts one after the other. -/

def SName.height : SName → Nat
  | .normal _ => 1
  | .type _ => 2

def SPath.innerHeight : SPath → Nat
  | .word _ => 1
  | .slash p _ => depth [p.innerHeight, 1, 1]

def SPath.height (p : SPath) : Nat := depth [1, p.innerHeight, 1]

mutual
def STKind.height : STKind → Nat
  | .basic => 1
  | .poly as r => depth [1, as.height, 1, r.height]
def STKinds.height : STKinds → Nat
  | .one k => depth [k.height]
  | .more ks k => depth [ks.height, 1, k.height]
end

def SNKind.height : SNKind → Nat
  | .basic => 1
  | .poly as r => depth [1, as.height, 1, r.height]

def SKind.height : SKind → Nat
  | .n k => depth [k.height]
  | .t k => depth [k.height]

def STaggedKinds.height : STaggedKinds → Nat
  | .one k x => depth [k.height, x.height]
  | .more ks k x => depth [ks.height, 1, k.height, x.height]

mutual
def SExpr.height : SExpr → Nat
  | .typeOf e => depth [1, 1, e.height, 1]
  | .var x => depth [x.height]
  | .modulePath p => depth [p.height]
  | .structType fs => depth [1, 1, fs.height, 1]
  | .apply f as => depth [f.height, 1, as.height, 1]
  | .struct as => depth [1, 1, as.height, 1]
  | .access e x => depth [e.height, 1, x.height]
  | .copy e as => depth [e.height, 1, 1, 1, as.height, 1]
  | .unionType fs => depth [1, 1, fs.height, 1]
  | .package p => depth [1, 1, p.height, 1]
  | .packageNone => depth [1, 1, 1]
  | .union t x e => depth [t.height, 1, x.height, 1, e.height, 1]
  | .select e cs => depth [e.height, 1, 1, 1, cs.height, 1]
  | .selectDefault e cs d => depth [e.height, 1, 1, 1, cs.height, 1, 1, d.height, 1]
  | .polyApply e as => depth [e.height, 1, as.height, 1]
  | .abstractAccess e => depth [e.height, 1, 1]
  | .cast p t e => depth [p.height, 1, 1, t.height, 1, 1, e.height, 1]
  | .list f as => depth [f.height, 1, as.height, 1]
  | .literal f _ => depth [f.height, 1, 1]
  | .block b => depth [b.height]
def SBlock.height : SBlock → Nat
  | .braces s => depth [1, s.height, 1]
  | .funcType as b => depth [1, as.height, 1, b.height]
  | .func as b => depth [1, as.height, 1, b.height]
  | .poly as b => depth [1, as.height, 1, b.height]
def SStmt.height : SStmt → Nat
  | .expr e => depth [e.height, 1]
  | .letE bs s => depth [bs.height, 1, s.height]
  | .bind as e s => depth [as.height, 1, 1, e.height, 1, s.height]
  | .default e s => depth [e.height, 1, s.height]
def SExprs.height : SExprs → Nat
  | .one e => depth [e.height]
  | .more es e => depth [es.height, 1, e.height]
def SExprs0.height : SExprs0 → Nat
  | .none => 1
  | .some es => depth [es.height]
def SType.height : SType → Nat
  | .mk t x => depth [t.height, x.height]
def STypes.height : STypes → Nat
  | .one t => depth [t.height]
  | .more ts t => depth [ts.height, 1, t.height]
def STypes0.height : STypes0 → Nat
  | .none => 1
  | .some ts => depth [ts.height]
def SImplicit.height : SImplicit → Nat
  | .var x => depth [x.height]
  | .colon x e => depth [x.height, 1, e.height]
def SImplicits.height : SImplicits → Nat
  | .one i => depth [i.height]
  | .more is i => depth [is.height, 1, i.height]
def SImplicits0.height : SImplicits0 → Nat
  | .none => 1
  | .some is => depth [is.height]
def STag.height : STag → Nat
  | .mk x e => depth [x.height, 1, e.height]
def STagged.height : STagged → Nat
  | .one t => depth [t.height]
  | .more ts t => depth [ts.height, 1, t.height]
def SBinds.height : SBinds → Nat
  | .type t x e => depth [t.height, x.height, 1, e.height]
  | .kind k x e => depth [k.height, x.height, 1, e.height]
  | .moreType bs t x e => depth [bs.height, 1, t.height, x.height, 1, e.height]
  | .moreKind bs k x e => depth [bs.height, 1, k.height, x.height, 1, e.height]
end

end Verif.Parse
