import Verif.Elab.Named
import Verif.Elab.Heap
/-
What the type checker says about expressions, for the specification in `Verif.Elab.Named`.
-/
namespace Verif.Elab
open Types

/-- The variables in scope, without those that were captured, which are variables of the parent. -/
def binders (σ : List Scope) : Binders := σ.flatMap fun sc => (sc.locals ++ sc.args).map fun v => (v.name, v.var.isNone)

/-- The expression, checked where these variables are in scope, has the type at address `t` in the
heap `h`, or had in an earlier heap. -/
def HasType (M : List Name) (Γ : Binders) (e : Expr) (t : Ptr) (h : Heap) : Prop :=
  ∃ n s s' tc, tcExpr M n e s = .ok (s', some (t, tc)) ∧ binders s.scopes = Γ ∧ HGood s'.heap h

/-- The expression stands for the type at address `t` in the heap `h`. -/
def IsType (M : List Name) (Γ : Binders) (e : Expr) (t : Ptr) (h : Heap) : Prop :=
  (∃ n s s', tcType M n e s = .ok (s', some t) ∧ binders s.scopes = Γ ∧ HGood s'.heap h) ∨
  (∃ tt n h0 h1 p, HasType M Γ e tt h0 ∧ normalType n h0 tt = .ok (h1, p) ∧ get h1 p = .ok (.type t) ∧ HGood h1 h) ∨
  (∃ tt, HasType M Γ e tt h ∧ valueOfType h tt = .ok (some t))

/-- What the expressions of a module are by their types. -/
def rolesIn (M : List Name) : Roles
  | Γ, .object k, e, xs => ∃ t h h' n p fs, HasType M Γ e t h ∧ normalType n h t = .ok (h', p) ∧ get h' p = .ok (.data k fs) ∧ xs = fs.map (·.1) ∧ xs.Nodup
  | Γ, .type k, e, xs => ∃ t h h' n p vars fs, IsType M Γ e t h ∧ depoly n h t = .ok (h', p, vars) ∧ get h' p = .ok (.data k fs) ∧ xs = fs.map (·.1) ∧ xs.Nodup
  | Γ, .letters, e, xs => ∃ t h h' h'' n p arg r elem q fs, HasType M Γ e t h ∧ normalType n h t = .ok (h', p) ∧ get h' p = .ok (.func arg r) ∧
      listElementType n h' arg = .ok (some elem) ∧ normalType n h' elem = .ok (h'', q) ∧ get h'' q = .ok (.data .union fs) ∧ xs = fs.map (·.1) ∧ xs.Nodup
  | Γ, .package, e, _ => ∃ t h h' n p path opaq, IsType M Γ e t h ∧ normalType n h t = .ok (h', p) ∧ get h' p = .ok (.package path opaq)
  | Γ, .function, e, _ => ∃ t h h' n p vars arg r, HasType M Γ e t h ∧ depoly n h t = .ok (h', p, vars) ∧ get h' p = .ok (.func arg r)
  | Γ, .notStruct, e, _ => ∃ t h h' n p nd, HasType M Γ e t h ∧ normalType n h t = .ok (h', p) ∧ get h' p = .ok nd ∧
      ∀ vt, nd = .type vt → ∃ h1 h2 q vars nd', HGood h' h1 ∧ depoly n h1 vt = .ok (h2, q, vars) ∧ get h2 q = .ok nd' ∧ ∀ fs, nd' ≠ .data .struct fs

end Verif.Elab
