import Verif.Types.Model
/-
The abstract syntax of fble: /repo/lib/expr.h.  Source locations are left out.
-/
namespace Verif.Elab
open Types (Name Kind DataKind)

mutual
/-- expr.h:19-66 `FbleExprTag`, `FbleExpr`; a type is an expression as well (expr.h:81). -/
inductive Expr where
  /-- expr.h:300-303 -/
  | typeOf (e : Expr)
  /-- expr.h:262-265 -/
  | var (x : Name)
  /-- expr.h:275-279 -/
  | letE (bindings : Binds) (body : Expr)
  /-- expr.h:117-121 -/
  | dataType (dt : DataKind) (fields : Tagged)
  /-- expr.h:455-459 -/
  | dataAccess (object : Expr) (field : Name)
  /-- expr.h:150-153 -/
  | structImplicit (args : Tagged)
  /-- expr.h:161-165 -/
  | structCopy (src : Expr) (args : Tagged)
  /-- expr.h:176-181 -/
  | unionValue (type : Expr) (field : Name) (arg : Expr)
  /-- expr.h:192-197 -/
  | select (condition : Expr) (choices : Tagged) (default : Default)
  /-- expr.h:207-211 -/
  | funcType (arg rtype : Expr)
  /-- expr.h:221-225 -/
  | func (x : Name) (type : Expr) (body : Expr)
  /-- expr.h:335-339 -/
  | polyValue (x : Name) (kind : Kind) (body : Expr)
  /-- expr.h:349-353 -/
  | polyApply (poly arg : Expr)
  /-- expr.h:403-407 -/
  | list (func : Expr) (args : Exprs)
  /-- expr.h:419-424 -/
  | literal (func : Expr) (word : List Char)
  /-- expr.h:288-291 -/
  | modulePath (path : List Name)
  /-- expr.h:362-365 -/
  | packageType (path : List Name)
  /-- expr.h:376-381 -/
  | abstractCast (package target value : Expr)
  /-- expr.h:390-393 -/
  | abstractAccess (value : Expr)
  /-- expr.h:439-444 -/
  | apply (misc : Expr) (args : Exprs) (bind : Bool)
/-- expr.h:75-78 `FbleExprV`. -/
inductive Exprs where
  | nil
  | cons (e : Expr) (es : Exprs)
/-- expr.h:130-143 `FbleTaggedExprV`, expr.h:93-106 `FbleTaggedTypeExprV`. -/
inductive Tagged where
  | nil
  | cons (x : Name) (e : Expr) (rest : Tagged)
/-- expr.h:238-253 `FbleBindingV`: either the kind or the type of a variable is given. -/
inductive Binds where
  | nil
  | kind (k : Kind) (x : Name) (e : Expr) (rest : Binds)
  | type (t : Expr) (x : Name) (e : Expr) (rest : Binds)
/-- An expression or NULL. -/
inductive Default where
  | none
  | some (e : Expr)
end

def Exprs.toList : Exprs → List Expr
  | .nil => []
  | .cons e es => e :: es.toList

def Tagged.toList : Tagged → List (Name × Expr)
  | .nil => []
  | .cons x e rest => (x, e) :: rest.toList

/-- A binding of a let. -/
structure Binding where
  /-- The kind or the type that is given. -/
  ann : Kind ⊕ Expr
  name : Name
  expr : Expr

def Binds.toList : Binds → List Binding
  | .nil => []
  | .kind k x e rest => ⟨.inl k, x, e⟩ :: rest.toList
  | .type t x e rest => ⟨.inr t, x, e⟩ :: rest.toList

def Default.toOption : Default → Option Expr
  | .none => Option.none
  | .some e => Option.some e

end Verif.Elab
