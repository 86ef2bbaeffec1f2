import Verif.Safe.Let2
import Verif.Safe.CastSame
/-
All of the type checker: expressions without polymorphic types and casts have the type they are given.
-/
namespace Verif.Elab
open Types
open Compile (Var Tc Tcs Flds Brs)

mutual
/-- The expression defines nothing polymorphic; casts to abstract types are allowed only if `c`. -/
def Expr.mono (c : Bool) : Expr → Bool
  | .typeOf e => e.mono c
  | .var _ => true
  | .letE bs body => bs.mono c && body.mono c
  | .dataType _ fs => fs.mono c
  | .dataAccess o _ => o.mono c
  | .structImplicit as => as.mono c
  | .structCopy src as => src.mono c && as.mono c
  | .unionValue t _ a => t.mono c && a.mono c
  | .select e cs d => e.mono c && cs.mono c && d.mono c
  | .funcType a r => a.mono c && r.mono c
  | .func _ t b => t.mono c && b.mono c
  | .polyValue _ _ _ => false
  | .polyApply p a => p.mono c && a.mono c
  | .list f as => f.mono c && as.mono c
  | .literal f _ => f.mono c
  | .modulePath _ => true
  | .packageType _ => true
  | .abstractCast p t v => c && (p.mono c && (t.mono c && v.mono c))
  | .abstractAccess v => v.mono c
  | .apply m as _ => m.mono c && as.mono c
def Exprs.mono (c : Bool) : Exprs → Bool
  | .nil => true
  | .cons e es => e.mono c && es.mono c
def Tagged.mono (c : Bool) : Tagged → Bool
  | .nil => true
  | .cons _ e es => e.mono c && es.mono c
def Binds.mono (c : Bool) : Binds → Bool
  | .nil => true
  | .kind _ _ e bs => e.mono c && bs.mono c
  | .type t _ e bs => t.mono c && e.mono c && bs.mono c
def Default.mono (c : Bool) : Default → Bool
  | .none => true
  | .some e => e.mono c
end

theorem Exprs.mono_mem {c : Bool} : {es : Exprs} → es.mono c = true → ∀ e ∈ es.toList, e.mono c = true
  | .nil, _ => by simp [Exprs.toList]
  | .cons e es, h => by
    simp only [Exprs.mono, Bool.and_eq_true] at h
    simp only [Exprs.toList, List.mem_cons, forall_eq_or_imp]
    exact ⟨h.1, Exprs.mono_mem h.2⟩

theorem Tagged.mono_mem {c : Bool} : {es : Tagged} → es.mono c = true → ∀ e ∈ es.toList, e.2.mono c = true
  | .nil, _ => by simp [Tagged.toList]
  | .cons x e es, h => by
    simp only [Tagged.mono, Bool.and_eq_true] at h
    simp only [Tagged.toList, List.mem_cons, forall_eq_or_imp]
    exact ⟨h.1, Tagged.mono_mem h.2⟩

theorem Binds.mono_mem {c : Bool} : {bs : Binds} → bs.mono c = true → ∀ b ∈ bs.toList, b.expr.mono c = true ∧ ∀ e, b.ann = .inr e → e.mono c = true
  | .nil, _ => by simp [Binds.toList]
  | .kind k x e bs, h => by
    simp only [Binds.mono, Bool.and_eq_true] at h
    simp only [Binds.toList, List.mem_cons, forall_eq_or_imp]
    exact ⟨⟨h.1, by simp⟩, Binds.mono_mem h.2⟩
  | .type t x e bs, h => by
    simp only [Binds.mono, Bool.and_eq_true] at h
    simp only [Binds.toList, List.mem_cons, forall_eq_or_imp]
    exact ⟨⟨h.1.2, by intro e he; cases he; exact h.1.1⟩, Binds.mono_mem h.2⟩

theorem tc_safe {c : Bool} (hc : c = true → Ca) (M : List Name) : (n : Nat) → (∀ e, e.mono c = true → Safe Ca (tcExpr M n e)) ∧ ∀ e, e.mono c = true → SafeT (tcType M n e)
  | 0 => ⟨fun e _ s s' x _ h => by simp [tcExpr] at h, fun e _ s s' x _ h => by simp [tcType] at h⟩
  | n + 1 => by
    obtain ⟨ihE, ihT⟩ := tc_safe hc M n
    have hP : ∀ e, Pres (tcExpr M n e) := (tc_pres M n).1
    constructor
    · intro e he
      rw [tcExpr.eq_def]
      cases e with
      | typeOf e => exact typeAsExpr_safe (ihT _ he)
      | var x => exact tcVar_safe _
      | letE bs body =>
        simp only [Expr.mono, Bool.and_eq_true] at he
        exact tcLet_safe hP (fun b hb e hbe => ihT e ((Binds.mono_mem he.1 b hb).2 e hbe)) (fun b hb => ihE _ (Binds.mono_mem he.1 b hb).1) (ihE _ he.2)
      | dataType dt fs => exact typeAsExpr_safe (ihT _ he)
      | dataAccess o x => exact tcAccess_safe (ihE _ (by simpa [Expr.mono] using he))
      | structImplicit as =>
        simp only [Expr.mono] at he
        exact tcStruct_safe fun a ha => ihE _ (Tagged.mono_mem he a ha)
      | structCopy src as =>
        simp only [Expr.mono, Bool.and_eq_true] at he
        exact tcCopy_safe (ihE _ he.1) fun a ha => ihE _ (Tagged.mono_mem he.2 a ha)
      | unionValue t x a =>
        simp only [Expr.mono, Bool.and_eq_true] at he
        exact tcUnion_safe (ihT _ he.1) (ihE _ he.2)
      | select c cs d =>
        simp only [Expr.mono, Bool.and_eq_true] at he
        refine tcSelect_safe (ihE _ he.1.1) (fun a ha => ihE _ (Tagged.mono_mem he.1.2 a ha)) ?_
        intro e hd
        cases d with
        | none => cases hd
        | some e' => cases hd; exact ihE _ (by simpa [Default.mono] using he.2)
      | funcType a r => exact typeAsExpr_safe (ihT _ he)
      | func x t b =>
        simp only [Expr.mono, Bool.and_eq_true] at he
        exact tcFunc_safe (ihT _ he.1) (ihE _ he.2)
      | polyValue x k b => simp [Expr.mono] at he
      | polyApply p a =>
        simp only [Expr.mono, Bool.and_eq_true] at he
        exact tcPolyApply_safe hP (ihE _ he.1) (ihE _ he.2)
      | list f as =>
        simp only [Expr.mono, Bool.and_eq_true] at he
        exact tcList_safe (ihE _ he.1) fun a ha => ihE _ (Exprs.mono_mem he.2 a ha)
      | literal f w => exact tcLiteral_safe (ihE _ (by simpa [Expr.mono] using he))
      | modulePath p => exact tcVar_safe _
      | packageType p => exact typeAsExpr_safe (ihT _ he)
      | abstractCast p t v =>
        simp only [Expr.mono, Bool.and_eq_true] at he
        exact tcCast_safe (hc he.1) (ihT _ he.2.1) (ihT _ he.2.2.1) (ihE _ he.2.2.2)
      | abstractAccess v => exact tcAbstractAccess_safe (ihE _ (by simpa [Expr.mono] using he))
      | apply m as b =>
        simp only [Expr.mono, Bool.and_eq_true] at he
        exact tcApply_safe (ihE _ he.1) fun a ha => ihE _ (Exprs.mono_mem he.2 a ha)
    · intro e he
      rw [tcType.eq_def]
      cases e with
      | typeOf e => exact exprForType_safe hP (ihE _ (by simpa [Expr.mono] using he))
      | dataType dt fs =>
        simp only [Expr.mono] at he
        intro s s' t hs h
        simp only at h
        obtain ⟨s1, o, h1, h⟩ := TM.bind_ok.mp h
        cases o with
        | none => cases (TM.pure_ok.mp h).2
        | some r =>
          obtain ⟨k1, k2, k3, k4⟩ := dataFields_safe fs.toList [] (fun f hf => ihT _ (Tagged.mono_mem he f hf)) hs h1
          have h2 : (alloc (.data dt r) >>= fun a => pure (some a) : TM _) s1 = .ok (s', some t) := h
          have h3 := TM.alloc_bind.mp h2
          obtain ⟨rfl, e⟩ := TM.pure_ok.mp h3
          cases e
          exact ⟨k1.alloc (n := .data dt r) k4 (by simp), k2, k3.trans (new_prefix _ _), new_lt _ _⟩
      | funcType a r =>
        simp only [Expr.mono, Bool.and_eq_true] at he
        exact tcFuncType_safe (ihT _ he.1) (ihT _ he.2)
      | packageType p =>
        intro s s' t hs h
        simp only at h
        have h2 : (alloc (.package p true) >>= fun a => pure (some a) : TM _) s = .ok (s', some t) := h
        have h3 := TM.alloc_bind.mp h2
        obtain ⟨rfl, e⟩ := TM.pure_ok.mp h3
        cases e
        exact ⟨hs.alloc (n := .package p true) rfl (by simp), rfl, new_prefix _ _, new_lt _ _⟩
      | _ => exact exprAsType_safe hP (ihE _ he)

end Verif.Elab
