import Verif.Elab.Expr
/-
The programs for which the type checker is shown not to crash.
-/
namespace Verif.Elab

mutual
/-- Without polymorphism and without struct copies. -/
def Expr.simple : Expr → Bool
  | .typeOf e => e.simple
  | .var _ => true
  | .letE bs body => bs.simple && body.simple
  | .dataType _ fs => fs.simple
  | .dataAccess o _ => o.simple
  | .structImplicit as => as.simple
  | .structCopy _ _ => false
  | .unionValue t _ a => t.simple && a.simple
  | .select e cs d => e.simple && cs.simple && d.simple
  | .funcType a r => a.simple && r.simple
  | .func _ t b => t.simple && b.simple
  | .polyValue _ _ _ => false
  | .polyApply p a => p.simple && a.simple
  | .list f as => f.simple && as.simple
  | .literal f _ => f.simple
  | .modulePath _ => true
  | .packageType _ => true
  | .abstractCast p t v => p.simple && t.simple && v.simple
  | .abstractAccess v => v.simple
  | .apply m as _ => m.simple && as.simple
def Exprs.simple : Exprs → Bool
  | .nil => true
  | .cons e es => e.simple && es.simple
def Tagged.simple : Tagged → Bool
  | .nil => true
  | .cons _ e es => e.simple && es.simple
def Binds.simple : Binds → Bool
  | .nil => true
  | .kind _ _ e bs => e.simple && bs.simple
  | .type t _ e bs => t.simple && e.simple && bs.simple
def Default.simple : Default → Bool
  | .none => true
  | .some e => e.simple
end


mutual
/-- Every select has at least one choice. -/
def Expr.chosen : Expr → Bool
  | .typeOf e => e.chosen
  | .var _ => true
  | .letE bs body => bs.chosen && body.chosen
  | .dataType _ fs => fs.chosen
  | .dataAccess o _ => o.chosen
  | .structImplicit as => as.chosen
  | .structCopy s as => s.chosen && as.chosen
  | .unionValue t _ a => t.chosen && a.chosen
  | .select _ .nil _ => false
  | .select e cs d => e.chosen && cs.chosen && d.chosen
  | .funcType a r => a.chosen && r.chosen
  | .func _ t b => t.chosen && b.chosen
  | .polyValue _ _ b => b.chosen
  | .polyApply p a => p.chosen && a.chosen
  | .list f as => f.chosen && as.chosen
  | .literal f _ => f.chosen
  | .modulePath _ => true
  | .packageType _ => true
  | .abstractCast p t v => p.chosen && t.chosen && v.chosen
  | .abstractAccess v => v.chosen
  | .apply m as _ => m.chosen && as.chosen
def Exprs.chosen : Exprs → Bool
  | .nil => true
  | .cons e es => e.chosen && es.chosen
def Tagged.chosen : Tagged → Bool
  | .nil => true
  | .cons _ e es => e.chosen && es.chosen
def Binds.chosen : Binds → Bool
  | .nil => true
  | .kind _ _ e bs => e.chosen && bs.chosen
  | .type t _ e bs => t.chosen && e.chosen && bs.chosen
def Default.chosen : Default → Bool
  | .none => true
  | .some e => e.chosen
end


end Verif.Elab
