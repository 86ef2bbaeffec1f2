import Verif.NoCrash.Spec
import Verif.NoCrash.Let2
import Verif.Whole.Source
/-
The type checker does not crash.
-/
namespace Verif.Elab

mutual
/-- Both. -/
def Expr.plain : Expr → Bool
  | .typeOf e => e.plain
  | .var _ => true
  | .letE bs body => bs.plain && body.plain
  | .dataType _ fs => fs.plain
  | .dataAccess o _ => o.plain
  | .structImplicit as => as.plain
  | .structCopy _ _ => false
  | .unionValue t _ a => t.plain && a.plain
  | .select _ .nil _ => false
  | .select e cs d => e.plain && cs.plain && d.plain
  | .funcType a r => a.plain && r.plain
  | .func _ t b => t.plain && b.plain
  | .polyValue _ _ _ => false
  | .polyApply p a => p.plain && a.plain
  | .list f as => f.plain && as.plain
  | .literal f _ => f.plain
  | .modulePath _ => true
  | .packageType _ => true
  | .abstractCast p t v => p.plain && t.plain && v.plain
  | .abstractAccess v => v.plain
  | .apply m as _ => m.plain && as.plain
def Exprs.plain : Exprs → Bool
  | .nil => true
  | .cons e es => e.plain && es.plain
def Tagged.plain : Tagged → Bool
  | .nil => true
  | .cons _ e es => e.plain && es.plain
def Binds.plain : Binds → Bool
  | .nil => true
  | .kind _ _ e bs => e.plain && bs.plain
  | .type t _ e bs => t.plain && e.plain && bs.plain
def Default.plain : Default → Bool
  | .none => true
  | .some e => e.plain
end



mutual
theorem plain_expr : (e : Expr) → e.simple = true → e.chosen = true → e.plain = true
  | .typeOf e, h, g => plain_expr e h g
  | .var _, _, _ => rfl
  | .letE bs b, h, g => by
    simp only [Expr.simple, Expr.chosen, Expr.plain, Bool.and_eq_true] at h g ⊢
    exact ⟨plain_binds bs h.1 g.1, plain_expr b h.2 g.2⟩
  | .dataType _ fs, h, g => plain_tagged fs h g
  | .dataAccess o _, h, g => plain_expr o h g
  | .structImplicit as, h, g => plain_tagged as h g
  | .unionValue t _ a, h, g => by
    simp only [Expr.simple, Expr.chosen, Expr.plain, Bool.and_eq_true] at h g ⊢
    exact ⟨plain_expr t h.1 g.1, plain_expr a h.2 g.2⟩
  | .funcType a r, h, g => by
    simp only [Expr.simple, Expr.chosen, Expr.plain, Bool.and_eq_true] at h g ⊢
    exact ⟨plain_expr a h.1 g.1, plain_expr r h.2 g.2⟩
  | .func _ t b, h, g => by
    simp only [Expr.simple, Expr.chosen, Expr.plain, Bool.and_eq_true] at h g ⊢
    exact ⟨plain_expr t h.1 g.1, plain_expr b h.2 g.2⟩
  | .polyApply p a, h, g => by
    simp only [Expr.simple, Expr.chosen, Expr.plain, Bool.and_eq_true] at h g ⊢
    exact ⟨plain_expr p h.1 g.1, plain_expr a h.2 g.2⟩
  | .list f as, h, g => by
    simp only [Expr.simple, Expr.chosen, Expr.plain, Bool.and_eq_true] at h g ⊢
    exact ⟨plain_expr f h.1 g.1, plain_exprs as h.2 g.2⟩
  | .literal f _, h, g => plain_expr f h g
  | .modulePath _, _, _ => rfl
  | .packageType _, _, _ => rfl
  | .abstractAccess v, h, g => plain_expr v h g
  | .apply m as _, h, g => by
    simp only [Expr.simple, Expr.chosen, Expr.plain, Bool.and_eq_true] at h g ⊢
    exact ⟨plain_expr m h.1 g.1, plain_exprs as h.2 g.2⟩
  | .structCopy _ _, h, _ => by simp [Expr.simple] at h
  | .polyValue _ _ _, h, _ => by simp [Expr.simple] at h
  | .select _ .nil _, _, g => by simp [Expr.chosen] at g
  | .select c (.cons x e cs) d, h, g => by
    simp only [Expr.simple, Expr.chosen, Expr.plain, Bool.and_eq_true] at h g ⊢
    exact ⟨⟨plain_expr c h.1.1 g.1.1, plain_tagged (.cons x e cs) h.1.2 g.1.2⟩, plain_default d h.2 g.2⟩
  | .abstractCast p t v, h, g => by
    simp only [Expr.simple, Expr.chosen, Expr.plain, Bool.and_eq_true] at h g ⊢
    exact ⟨⟨plain_expr p h.1.1 g.1.1, plain_expr t h.1.2 g.1.2⟩, plain_expr v h.2 g.2⟩
theorem plain_exprs : (e : Exprs) → e.simple = true → e.chosen = true → e.plain = true
  | .nil, _, _ => rfl
  | .cons e es, h, g => by
    simp only [Exprs.simple, Exprs.chosen, Exprs.plain, Bool.and_eq_true] at h g ⊢
    exact ⟨plain_expr e h.1 g.1, plain_exprs es h.2 g.2⟩
theorem plain_tagged : (e : Tagged) → e.simple = true → e.chosen = true → e.plain = true
  | .nil, _, _ => rfl
  | .cons _ e es, h, g => by
    simp only [Tagged.simple, Tagged.chosen, Tagged.plain, Bool.and_eq_true] at h g ⊢
    exact ⟨plain_expr e h.1 g.1, plain_tagged es h.2 g.2⟩
theorem plain_binds : (e : Binds) → e.simple = true → e.chosen = true → e.plain = true
  | .nil, _, _ => rfl
  | .kind _ _ e bs, h, g => by
    simp only [Binds.simple, Binds.chosen, Binds.plain, Bool.and_eq_true] at h g ⊢
    exact ⟨plain_expr e h.1 g.1, plain_binds bs h.2 g.2⟩
  | .type t _ e bs, h, g => by
    simp only [Binds.simple, Binds.chosen, Binds.plain, Bool.and_eq_true] at h g ⊢
    exact ⟨⟨plain_expr t h.1.1 g.1.1, plain_expr e h.1.2 g.1.2⟩, plain_binds bs h.2 g.2⟩
theorem plain_default : (e : Default) → e.simple = true → e.chosen = true → e.plain = true
  | .none, _, _ => rfl
  | .some e, h, g => plain_expr e h g
end

mutual
/-- A bound on the number of types that checking the expression adds, and on the depth of the calls. -/
def Expr.cost : Expr → Nat
  | .typeOf e => e.cost + 3
  | .var _ => 3
  | .letE bs body => bs.cost + body.cost + 3
  | .dataType _ fs => fs.cost + 1 + 3
  | .dataAccess o _ => o.cost + 3
  | .structImplicit as => as.cost + 1 + 3
  | .structCopy _ _ => 3
  | .unionValue t _ a => t.cost + a.cost + 3
  | .select e cs d => e.cost + cs.cost + d.cost + 3
  | .funcType a r => a.cost + r.cost + 1 + 3
  | .func _ t b => t.cost + b.cost + 1 + 3
  | .polyValue _ _ _ => 3
  | .polyApply p a => p.cost + a.cost + 2 + 3
  | .list f as => f.cost + as.cost + 3
  | .literal f _ => f.cost + 1 + 3
  | .modulePath _ => 3
  | .packageType _ => 1 + 3
  | .abstractCast p t v => p.cost + t.cost + v.cost + 3
  | .abstractAccess v => v.cost + 3
  | .apply m as _ => m.cost + as.cost + 1 + 3
def Exprs.cost : Exprs → Nat
  | .nil => 0
  | .cons e es => e.cost + es.cost
def Tagged.cost : Tagged → Nat
  | .nil => 0
  | .cons _ e es => e.cost + es.cost
def Binds.cost : Binds → Nat
  | .nil => 0
  | .kind k _ e bs => Types.kindLevel k + 1 + e.cost + bs.cost
  | .type t _ e bs => t.cost + e.cost + bs.cost
def Default.cost : Default → Nat
  | .none => 0
  | .some e => e.cost
end

/-- The expressions that `TypeCheckType` checks without `TypeCheckExpr`. -/
def Expr.isType : Expr → Bool
  | .typeOf _ => true
  | .dataType _ _ => true
  | .funcType _ _ => true
  | .packageType _ => true
  | _ => false

end Verif.Elab

namespace Verif.NoCrash
open Types Elab
open Compile (Var Tc)
open Whole (emods xmods tmods bmods dmods)

/-- The expression is plain and refers only to the modules of `D`. -/
def Ok (D : List (List Name)) (e : Expr) : Prop := e.plain = true ∧ ∀ p ∈ emods e, p ∈ D

variable {D : List (List Name)}

theorem exprs_ok : {es : Exprs} → es.plain = true → (∀ p ∈ xmods es, p ∈ D) → ∀ e ∈ es.toList, Ok D e
  | .nil, _, _ => by simp [Exprs.toList]
  | .cons e es, h, hm => by
    simp only [Exprs.plain, Bool.and_eq_true] at h
    simp only [xmods, List.mem_append] at hm
    simp only [Exprs.toList, List.mem_cons, forall_eq_or_imp]
    exact ⟨⟨h.1, fun p hp => hm p (.inl hp)⟩, exprs_ok h.2 fun p hp => hm p (.inr hp)⟩

theorem tagged_ok : {es : Tagged} → es.plain = true → (∀ p ∈ tmods es, p ∈ D) → ∀ e ∈ es.toList, Ok D e.2
  | .nil, _, _ => by simp [Tagged.toList]
  | .cons _ e es, h, hm => by
    simp only [Tagged.plain, Bool.and_eq_true] at h
    simp only [tmods, List.mem_append] at hm
    simp only [Tagged.toList, List.mem_cons, forall_eq_or_imp]
    exact ⟨⟨h.1, fun p hp => hm p (.inl hp)⟩, tagged_ok h.2 fun p hp => hm p (.inr hp)⟩

theorem binds_ok : {bs : Binds} → bs.plain = true → (∀ p ∈ bmods bs, p ∈ D) → ∀ b ∈ bs.toList, Ok D b.expr ∧ ∀ e, b.ann = .inr e → Ok D e
  | .nil, _, _ => by simp [Binds.toList]
  | .kind _ _ e bs, h, hm => by
    simp only [Binds.plain, Bool.and_eq_true] at h
    simp only [bmods, List.mem_append] at hm
    simp only [Binds.toList, List.mem_cons, forall_eq_or_imp]
    exact ⟨⟨⟨h.1, fun p hp => hm p (.inl hp)⟩, by simp⟩, binds_ok h.2 fun p hp => hm p (.inr hp)⟩
  | .type t _ e bs, h, hm => by
    simp only [Binds.plain, Bool.and_eq_true] at h
    simp only [bmods, List.mem_append] at hm
    simp only [Binds.toList, List.mem_cons, forall_eq_or_imp]
    exact ⟨⟨⟨h.1.2, fun p hp => hm p (.inl (.inr hp))⟩, by intro e he; cases he; exact ⟨h.1.1, fun p hp => hm p (.inl (.inl hp))⟩⟩, binds_ok h.2 fun p hp => hm p (.inr hp)⟩

theorem exprs_cost : (es : Exprs) → (es.toList.map Expr.cost).sum = es.cost
  | .nil => rfl
  | .cons e es => by simp [Exprs.toList, Exprs.cost, exprs_cost es]

theorem tagged_cost : (es : Tagged) → (es.toList.map fun a => a.2.cost).sum = es.cost
  | .nil => rfl
  | .cons _ e es => by simp [Tagged.toList, Tagged.cost, tagged_cost es]

theorem binds_cost : (bs : Binds) → (bs.toList.map (annCost Expr.cost)).sum + (bs.toList.map fun b => b.expr.cost).sum = bs.cost
  | .nil => rfl
  | .kind k _ e bs => by
    have := binds_cost bs
    simp only [Binds.toList, Binds.cost, List.map_cons, List.sum_cons, annCost]
    omega
  | .type t _ e bs => by
    have := binds_cost bs
    simp only [Binds.toList, Binds.cost, List.map_cons, List.sum_cons, annCost]
    omega

theorem default_cost : (d : Default) → d.toOption.elim 0 Expr.cost = d.cost
  | .none => rfl
  | .some _ => rfl

theorem fine_more {c : Nat} : Fine 0 c D (fun _ => .more) := fun _ _ => .more
theorem fineT_more {c : Nat} : FineT 0 c D (fun _ => .more) := fun _ _ => .more

/-- A call, of at most this cost. -/
theorem Fine.up {n c c' : Nat} {m : TM (Option (Ptr × Tc))} (h : Fine n c D m) (hc : c + 1 ≤ c' := by omega) : Fine (n + 1) c' D m := fun s hs => ((h s hs).deeper).weaken hc
theorem FineT.up {n c c' : Nat} {m : TM (Option Ptr)} (h : FineT n c D m) (hc : c + 1 ≤ c' := by omega) : FineT (n + 1) c' D m := fun s hs => ((h s hs).deeper).weaken hc
theorem Fine.weaken {n c c' : Nat} {m : TM (Option (Ptr × Tc))} (h : Fine n c D m) (hc : c ≤ c') : Fine n c' D m := fun s hs => (h s hs).weaken hc
theorem FineT.weaken {n c c' : Nat} {m : TM (Option Ptr)} (h : FineT n c D m) (hc : c ≤ c') : FineT n c' D m := fun s hs => (h s hs).weaken hc

/-- Comparing the costs of an expression and of its parts. -/
macro "pay" : tactic => `(tactic| (simp only [Expr.cost, Expr.isType, exprs_cost, tagged_cost, if_true, if_false, Bool.false_eq_true] at *; omega))

theorem cost_three (e : Expr) : 3 ≤ e.cost := by
  cases e <;> simp only [Expr.cost] <;> omega

theorem tcType_other {M : List Name} {n : Nat} {e : Expr} (h : e.isType = false) : tcType M (n + 1) e = exprAsType (tcExpr M n) e := by
  rw [tcType.eq_def]
  cases e with
  | typeOf _ => cases h
  | dataType _ _ => cases h
  | funcType _ _ => cases h
  | packageType _ => cases h
  | _ => rfl

theorem tcType_fine {M : List Name} {n : Nat} (ihE0 : ∀ e, Ok D e → Fine n (e.cost - if e.isType then 0 else 2) D (tcExpr M n e))
    (ihE : ∀ e, Ok D e → Fine n e.cost D (tcExpr M n e)) (ihT : ∀ e, Ok D e → FineT n e.cost D (tcType M n e)) (e : Expr) (hok : Ok D e) :
    FineT (n + 1) (e.cost - if e.isType then 2 else 0) D (tcType M (n + 1) e) := by
  cases ht : e.isType with
  | false =>
    have h := ihE0 e hok
    rw [ht] at h
    rw [tcType_other ht]
    have := cost_three e
    exact (exprAsType_fine (W := fun e => e.cost - 2) h).up (by simp only [Bool.false_eq_true, if_false]; omega)
  | true =>
    obtain ⟨he, hm⟩ := hok
    rw [tcType.eq_def]
    cases e with
    | typeOf e => exact (exprForType_fine (W := Expr.cost) (ihE _ ⟨by simpa [Expr.plain] using he, by simpa [emods] using hm⟩)).up (by simp only [Expr.cost, if_true]; omega)
    | dataType dt fs =>
      simp only [Expr.plain] at he
      simp only [emods] at hm
      exact (dataType_fine (W := Expr.cost) fun f hf => ihT _ (tagged_ok he hm f hf)).up (by simp only [Expr.cost, tagged_cost, if_true]; omega)
    | funcType a r =>
      simp only [Expr.plain, Bool.and_eq_true] at he
      simp only [emods, List.mem_append] at hm
      exact (tcFuncType_fine (W := Expr.cost) (ihT _ ⟨he.1, fun p hp => hm p (.inl hp)⟩) (ihT _ ⟨he.2, fun p hp => hm p (.inr hp)⟩)).up (by simp only [Expr.cost, if_true]; omega)
    | packageType p => exact package_fine.up (by simp only [Expr.cost, if_true]; omega)
    | _ => cases ht

theorem tc_fine (M : List Name) : (n : Nat) → (∀ e, Ok D e → Fine n (e.cost - if e.isType then 0 else 2) D (tcExpr M n e)) ∧ ∀ e, Ok D e → FineT n (e.cost - if e.isType then 2 else 0) D (tcType M n e)
  | 0 => ⟨fun e _ => by rw [tcExpr.eq_def]; exact fine_more, fun e _ => by rw [tcType.eq_def]; exact fineT_more⟩
  | n + 1 => by
    obtain ⟨ihE0, ihT0⟩ := tc_fine M n
    have ihE : ∀ e, Ok D e → Fine n e.cost D (tcExpr M n e) := fun e he => (ihE0 e he).weaken (by omega)
    have ihT : ∀ e, Ok D e → FineT n e.cost D (tcType M n e) := fun e he => (ihT0 e he).weaken (by omega)
    constructor
    · rintro e ⟨he, hm⟩
      rw [tcExpr.eq_def]
      cases e with
      | typeOf e => exact (typeAsExpr_fine (W := fun e => e.cost - 2) (ihT0 _ ⟨he, hm⟩)).up (by pay)
      | var x => exact (tcVar_fine (by simp)).up (by pay)
      | letE bs body =>
        simp only [Expr.plain, Bool.and_eq_true] at he
        simp only [emods, List.mem_append] at hm
        have hb := binds_ok he.1 fun p hp => hm p (.inl hp)
        exact (tcLet_fine (W := Expr.cost) (fun b hb' e hbe => ihT e ((hb b hb').2 e hbe)) (fun b hb' => ihE _ (hb b hb').1) (ihE _ ⟨he.2, fun p hp => hm p (.inr hp)⟩)).up (by have := binds_cost bs; pay)
      | dataType dt fs => exact (typeAsExpr_fine (W := fun e => e.cost - 2) (ihT0 _ ⟨he, hm⟩)).up (by pay)
      | dataAccess o x => exact (tcAccess_fine (W := Expr.cost) (ihE _ ⟨by simpa [Expr.plain] using he, by simpa [emods] using hm⟩)).up (by pay)
      | structImplicit as =>
        simp only [Expr.plain] at he
        simp only [emods] at hm
        exact (tcStruct_fine (W := Expr.cost) fun a ha => ihE _ (tagged_ok he hm a ha)).up (by pay)
      | structCopy src as => simp [Expr.plain] at he
      | unionValue t x a =>
        simp only [Expr.plain, Bool.and_eq_true] at he
        simp only [emods, List.mem_append] at hm
        exact (tcUnion_fine (W := Expr.cost) (ihT _ ⟨he.1, fun p hp => hm p (.inl hp)⟩) (ihE _ ⟨he.2, fun p hp => hm p (.inr hp)⟩)).up (by pay)
      | select c cs d =>
        cases cs with
        | nil => simp [Expr.plain] at he
        | cons x e cs =>
          simp only [Expr.plain, Bool.and_eq_true] at he
          simp only [emods, List.mem_append] at hm
          refine (tcSelect_fine (W := Expr.cost) (ihE _ ⟨he.1.1, fun p hp => hm p (.inl (.inl hp))⟩) (fun a ha => ihE _ (tagged_ok (es := .cons x e cs) he.1.2 (fun p hp => hm p (.inl (.inr hp))) a ha)) ?_ (by simp [Tagged.toList])).up (by have := default_cost d; have := tagged_cost (.cons x e cs); pay)
          intro e hd
          cases d with
          | none => cases hd
          | some e' => cases hd; exact ihE _ ⟨by simpa [Default.plain] using he.2, fun p hp => hm p (.inr (by simpa [dmods] using hp))⟩
      | funcType a r => exact (typeAsExpr_fine (W := fun e => e.cost - 2) (ihT0 _ ⟨he, hm⟩)).up (by pay)
      | func x t b =>
        simp only [Expr.plain, Bool.and_eq_true] at he
        simp only [emods, List.mem_append] at hm
        exact (tcFunc_fine (W := Expr.cost) (ihT _ ⟨he.1, fun p hp => hm p (.inl hp)⟩) (ihE _ ⟨he.2, fun p hp => hm p (.inr hp)⟩)).up (by pay)
      | polyValue x k b => simp [Expr.plain] at he
      | polyApply p a =>
        simp only [Expr.plain, Bool.and_eq_true] at he
        simp only [emods, List.mem_append] at hm
        exact (tcPolyApply_fine (W := Expr.cost) (ihE _ ⟨he.1, fun p hp => hm p (.inl hp)⟩) (ihE _ ⟨he.2, fun p hp => hm p (.inr hp)⟩)).up (by pay)
      | list f as =>
        simp only [Expr.plain, Bool.and_eq_true] at he
        simp only [emods, List.mem_append] at hm
        exact (tcList_fine (W := Expr.cost) (ihE _ ⟨he.1, fun p hp => hm p (.inl hp)⟩) fun a ha => ihE _ (exprs_ok he.2 (fun p hp => hm p (.inr hp)) a ha)).up (by pay)
      | literal f w => exact (tcLiteral_fine (W := Expr.cost) (ihE _ ⟨by simpa [Expr.plain] using he, by simpa [emods] using hm⟩)).up (by pay)
      | modulePath p => exact (tcVar_fine (fun q hq => by cases hq; exact hm p (by simp [emods]))).up (by pay)
      | packageType p => exact (typeAsExpr_fine (W := fun e => e.cost - 2) (ihT0 _ ⟨he, hm⟩)).up (by pay)
      | abstractCast p t v =>
        simp only [Expr.plain, Bool.and_eq_true] at he
        simp only [emods, List.mem_append] at hm
        exact (tcCast_fine (W := Expr.cost) (ihT _ ⟨he.1.1, fun p hp => hm p (.inl (.inl hp))⟩) (ihT _ ⟨he.1.2, fun p hp => hm p (.inl (.inr hp))⟩) (ihE _ ⟨he.2, fun p hp => hm p (.inr hp)⟩)).up (by pay)
      | abstractAccess v => exact (tcAbstractAccess_fine (W := Expr.cost) (ihE _ ⟨by simpa [Expr.plain] using he, by simpa [emods] using hm⟩)).up (by pay)
      | apply m as b =>
        simp only [Expr.plain, Bool.and_eq_true] at he
        simp only [emods, List.mem_append] at hm
        exact (tcApply_fine (W := Expr.cost) (ihE _ ⟨he.1, fun p hp => hm p (.inl hp)⟩) fun a ha => ihE _ (exprs_ok he.2 (fun p hp => hm p (.inr hp)) a ha)).up (by pay)
    · exact tcType_fine ihE0 ihE ihT

/-! ### Programs -/

theorem depTypes_ok {done : List Module} {types : List (Option Ptr)} : {ds : List (List Name)} → {ts : List Ptr} → depTypes done types ds = some ts →
    ts.length = ds.length ∧ ∀ t ∈ ts, some t ∈ types
  | [], ts, h => by cases h; simp
  | d :: ds, ts, h => by
    rw [depTypes] at h
    cases hf : findModule d done with
    | none => rw [hf] at h; cases h
    | some i =>
      rw [hf] at h
      simp only at h
      cases ht : types[i]? with
      | none => rw [ht] at h; cases h
      | some o =>
        cases o with
        | none => rw [ht] at h; cases h
        | some t =>
          rw [ht] at h
          simp only [Option.map_eq_some_iff] at h
          obtain ⟨ts', h1, rfl⟩ := h
          obtain ⟨g1, g2⟩ := depTypes_ok h1
          refine ⟨by simp [g1], ?_⟩
          simp only [List.mem_cons, forall_eq_or_imp]
          exact ⟨List.mem_of_getElem? ht, g2⟩

theorem argVars_names : (i : Nat) → (as : List (VarName × Ptr)) → (argVars i as).map nt = as
  | _, [] => rfl
  | i, (x, t) :: as => by simp [argVars, argVars_names (i + 1) as, nt]

theorem tcModule_fine {n : Nat} {m : Module} {deps : List Ptr} {h : Heap} (hm : Ok m.deps m.value) (hh : Pre h) (hd : ∀ t ∈ deps, Fin h t) (hl : deps.length = m.deps.length) :
    (tcModule n m deps h = .more ∧ n < need (h.length + m.value.cost)) ∨
      ∃ h' r, tcModule n m deps h = .ok (h', r) ∧ h'.length ≤ h.length + m.value.cost ∧ Pre h' ∧ h <+: h' ∧ ∀ x, r = some x → Fin h' x.1 := by
  have hz : ((m.deps.map VarName.module).zip deps).map Prod.fst = m.deps.map VarName.module := by
    rw [List.map_fst_zip]; simp [hl]
  have hr : Ready m.deps ⟨h, [initScope none ((m.deps.map VarName.module).zip deps)]⟩ := by
    refine ⟨hh, ?_, by simp, fun p hp => ⟨_, List.mem_singleton.mpr rfl, ?_⟩⟩
    · intro sc hsc v hv
      simp only [List.mem_singleton] at hsc
      subst hsc
      simp only [initScope, Scope.vars, List.nil_append, List.append_nil, List.mem_reverse] at hv
      have : nt v ∈ (argVars 0 ((m.deps.map VarName.module).zip deps)).map nt := List.mem_map.mpr ⟨v, hv, rfl⟩
      rw [argVars_names] at this
      exact hd _ (List.of_mem_zip this).2
    · simp only [initScope, List.map_reverse, List.mem_reverse]
      have : (argVars 0 ((m.deps.map VarName.module).zip deps)).map (·.name) = m.deps.map VarName.module := by
        have := congrArg (List.map Prod.fst) (argVars_names 0 ((m.deps.map VarName.module).zip deps))
        rw [hz] at this
        simpa [List.map_map, Function.comp_def, nt] using this
      rw [this]
      exact List.mem_map.mpr ⟨p, hp, rfl⟩
  obtain ⟨h1, h2, h3⟩ := ((tc_fine m.path n).1 m.value hm).weaken (c' := m.value.cost) (by omega) _ hr
  rw [tcModule]
  cases he : tcExpr m.path n m.value ⟨h, [initScope none ((m.deps.map VarName.module).zip deps)]⟩ with
  | fail => exact absurd he h1
  | more => exact .inl ⟨rfl, h2 he⟩
  | ok x =>
    obtain ⟨s', r⟩ := x
    obtain ⟨g0, g1, g2, -, g3⟩ := h3 s' r he
    exact .inr ⟨s'.heap, r, rfl, g0, g1, g2, g3⟩

theorem tcModules_fine {n : Nat} : (ms done : List Module) → (types : List (Option Ptr)) → (h : Heap) → (∀ m ∈ ms, Ok m.deps m.value) → Pre h → (∀ t, some t ∈ types → Fin h t) →
    (tcModules n done types ms h = .more ∧ n < need (h.length + (ms.map fun m => m.value.cost).sum)) ∨ ∃ r, tcModules n done types ms h = .ok r
  | [], done, types, h, _, _, _ => by rw [tcModules]; exact .inr ⟨_, rfl⟩
  | m :: ms, done, types, h, hms, hh, ht => by
    rw [tcModules]
    have next : ∀ h' (r : Option (Ptr × Tc)), h'.length ≤ h.length + m.value.cost → Pre h' → h <+: h' → (∀ x, r = some x → Fin h' x.1) →
        (R.bind (tcModules n (done ++ [m]) (types ++ [r.map (·.1)]) ms h') (fun rs => .ok (r.map (·.2) :: rs)) = .more ∧
          n < need (h.length + ((m :: ms).map fun m => m.value.cost).sum)) ∨
        ∃ x, R.bind (tcModules n (done ++ [m]) (types ++ [r.map (·.1)]) ms h') (fun rs => .ok (r.map (·.2) :: rs)) = .ok x := by
      intro h' r g0 g1 g2 g3
      have := tcModules_fine (n := n) ms (done ++ [m]) (types ++ [r.map (·.1)]) h' (fun m' hm' => hms m' (by simp [hm'])) g1 (by
        intro t htm
        simp only [List.mem_append, List.mem_singleton] at htm
        rcases htm with htm | htm
        · exact (ht t htm).prefix hh g2
        · cases r with
          | none => cases htm
          | some x => cases htm; exact g3 x rfl)
      rcases this with ⟨e, hn⟩ | ⟨x, e⟩
      · rw [e]; exact .inl ⟨rfl, Nat.lt_of_lt_of_le hn (need_mono (by simp only [List.map_cons, List.sum_cons]; omega))⟩
      · rw [e]; exact .inr ⟨_, rfl⟩
    cases hd : depTypes done types m.deps with
    | none => exact next h none (by omega) hh List.prefix_rfl (by simp)
    | some deps =>
      obtain ⟨g1, g2⟩ := depTypes_ok hd
      rcases tcModule_fine (n := n) (hms m (by simp)) hh (fun t h => ht t (g2 t h)) g1 with ⟨e, hn⟩ | ⟨h', r, e, k0, k1, k2, k3⟩
      · simp only; rw [e]; exact .inl ⟨rfl, Nat.lt_of_lt_of_le hn (need_mono (by simp only [List.map_cons, List.sum_cons]; omega))⟩
      · simp only; rw [e]; exact next h' r k0 k1 k2 k3

theorem tcProgram_fine {program : List Module} (h1 : ∀ m ∈ program, m.value.simple = true ∧ m.value.chosen = true) (h2 : ∀ m ∈ program, ∀ p ∈ emods m.value, p ∈ m.deps) (n : Nat) :
    (tcProgram n program = .more ∧ n < need (program.map fun m => m.value.cost).sum) ∨ ∃ r, tcProgram n program = .ok r := by
  have := tcModules_fine (n := n) program [] [] [] (fun m hm => ⟨plain_expr _ (h1 m hm).1 (h1 m hm).2, h2 m hm⟩)
    ⟨fun p _ h => by simp at h, fun p _ _ h => by simp at h, fun p _ h => by simp at h, fun p _ _ h => by simp at h⟩ (by simp)
  rw [tcProgram]
  rcases this with ⟨e, hn⟩ | ⟨r, e⟩
  · rw [e]; exact .inl ⟨rfl, by simpa using hn⟩
  · rw [e]; exact .inr ⟨_, rfl⟩

/-- C71: the type checker does not crash: for a program without polymorphism and without struct copies, in which every select has a choice and the modules only refer to
modules they are said to refer to, no assertion fails, whether or not the program has type errors. -/
theorem C71_no_crash {program : List Module} (h1 : ∀ m ∈ program, m.value.simple = true ∧ m.value.chosen = true) (h2 : ∀ m ∈ program, ∀ p ∈ emods m.value, p ∈ m.deps) (n : Nat) :
    tcProgram n program ≠ .fail := by
  rcases tcProgram_fine h1 h2 n with ⟨e, -⟩ | ⟨r, e⟩ <;> rw [e] <;> intro h <;> cases h

/-- C72: type checking ends: for such a program there is a number of steps, quadratic in its size, after which the type checker has accepted or rejected it. -/
theorem C72_ends {program : List Module} (h1 : ∀ m ∈ program, m.value.simple = true ∧ m.value.chosen = true) (h2 : ∀ m ∈ program, ∀ p ∈ emods m.value, p ∈ m.deps) (n : Nat)
    (hn : need (program.map fun m => m.value.cost).sum ≤ n) : ∃ r, tcProgram n program = .ok r := by
  rcases tcProgram_fine h1 h2 n with ⟨-, h⟩ | h
  · omega
  · exact h

end Verif.NoCrash
