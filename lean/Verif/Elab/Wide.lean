import Verif.Elab.C16
/-
Programs all of whose selects have choices for two different tags: they meet the premise `N.Tables` of the theorems about programs (C60 and those that build on it).
-/
namespace Verif.Elab
open Types (Name)

/-- Two different names. -/
def Tagged.two : Tagged → Bool
  | .cons x _ (.cons y _ _) => decide (x ≠ y)
  | _ => false

mutual
/-- Every select has choices for two different tags. -/
def Expr.wide : Expr → Bool
  | .typeOf _ => true
  | .var _ => true
  | .letE bs b => bs.wide && b.wide
  | .dataType _ _ => true
  | .dataAccess o _ => o.wide
  | .structImplicit as => as.wide
  | .structCopy s as => s.wide && as.wide
  | .unionValue _ _ a => a.wide
  | .select c cs d => c.wide && cs.two && cs.wide && d.wide
  | .funcType _ _ => true
  | .func _ _ b => b.wide
  | .polyValue _ _ b => b.wide
  | .polyApply p _ => p.wide
  | .list f as => f.wide && as.wide
  | .literal f _ => f.wide
  | .modulePath _ => true
  | .packageType _ => true
  | .abstractCast _ _ v => v.wide
  | .abstractAccess v => v.wide
  | .apply f as _ => f.wide && as.wide
def Exprs.wide : Exprs → Bool
  | .nil => true
  | .cons e es => e.wide && es.wide
def Tagged.wide : Tagged → Bool
  | .nil => true
  | .cons _ e es => e.wide && es.wide
def Binds.wide : Binds → Bool
  | .nil => true
  | .kind _ _ e bs => e.wide && bs.wide
  | .type _ _ e bs => e.wide && bs.wide
def Default.wide : Default → Bool
  | .none => true
  | .some e => e.wide
end

theorem Exprs.wide_all : {es : Exprs} → es.wide = true → ∀ e ∈ es.toList, e.wide = true
  | .nil, _, _, he => by cases he
  | .cons e es, h, x, hx => by
    simp only [Exprs.wide, Bool.and_eq_true] at h
    rcases List.mem_cons.mp hx with rfl | hx
    · exact h.1
    · exact Exprs.wide_all h.2 x hx

theorem Tagged.wide_all : {es : Tagged} → es.wide = true → ∀ e ∈ es.toList, e.2.wide = true
  | .nil, _, _, he => by cases he
  | .cons _ e es, h, x, hx => by
    simp only [Tagged.wide, Bool.and_eq_true] at h
    rcases List.mem_cons.mp hx with rfl | hx
    · exact h.1
    · exact Tagged.wide_all h.2 x hx

theorem Binds.wide_all : {bs : Binds} → bs.wide = true → ∀ e ∈ bs.toList.map (·.expr), e.wide = true
  | .nil, _, _, he => by cases he
  | .kind _ _ e es, h, x, hx => by
    simp only [Binds.wide, Bool.and_eq_true] at h
    rcases List.mem_cons.mp hx with rfl | hx
    · exact h.1
    · exact Binds.wide_all h.2 x hx
  | .type _ _ e es, h, x, hx => by
    simp only [Binds.wide, Bool.and_eq_true] at h
    rcases List.mem_cons.mp hx with rfl | hx
    · exact h.1
    · exact Binds.wide_all h.2 x hx

theorem two_names {cs : Tagged} (h : cs.two = true) {xs : List Name} (hx : ∀ c ∈ cs.toList, c.1 ∈ xs) : 2 ≤ xs.length ∧ cs.toList ≠ [] := by
  match cs, h with
  | .cons x e (.cons y e' r), h =>
    have hne : x ≠ y := of_decide_eq_true h
    have h1 : x ∈ xs := hx (x, e) (by simp [Tagged.toList])
    have h2 : y ∈ xs := hx (y, e') (by simp [Tagged.toList])
    refine ⟨?_, by simp [Tagged.toList]⟩
    match xs with
    | [] => cases h1
    | [a] =>
      simp only [List.mem_singleton] at h1 h2
      exact absurd (h1.trans h2.symm) hne
    | _ :: _ :: _ => simp

variable {F : Roles}

mutual
theorem Erases.tables : {Γ : Binders} → {e : Expr} → {t : N} → Erases F Γ e t → e.wide = true → t.Tables
  | _, _, _, .typeOf, _ | _, _, _, .dataType, _ | _, _, _, .funcType, _ | _, _, _, .packageType, _ | _, _, _, .var _, _ | _, _, _, .typeVar _, _ | _, _, _, .modulePath _, _ | _, _, _, .abstractType _, _ => trivial
  | _, _, _, .letE h1 h2, h => by
    simp only [Expr.wide, Bool.and_eq_true] at h
    exact ⟨ErasesAll.tables h1 (Binds.wide_all h.1), Erases.tables h2 h.2⟩
  | _, _, _, .structImplicit h1, h => by
    simp only [Expr.wide] at h
    refine ErasesAll.tables h1 fun e he => ?_
    obtain ⟨x, hx, rfl⟩ := List.mem_map.mp he
    exact Tagged.wide_all h x hx
  | _, _, _, .structCopy _ h1 h2 _, h => by
    simp only [Expr.wide, Bool.and_eq_true] at h
    exact ⟨Erases.tables h1 h.1, ErasesTagged.tables h2 (Tagged.wide_all h.2)⟩
  | _, _, _, .unionValue _ h1, h => by
    simp only [Expr.wide] at h
    have := Erases.tables h1 h
    exact this
  | _, _, _, .select _ h1 h2 h3 hx, h => by
    simp only [Expr.wide, Bool.and_eq_true] at h
    obtain ⟨⟨⟨a, b⟩, c⟩, d⟩ := h
    obtain ⟨k1, k2⟩ := two_names b hx
    refine ⟨Erases.tables h1 a, k1, ?_, ErasesTagged.tables h2 (Tagged.wide_all c), ErasesDefault.tables h3 d⟩
    rintro rfl
    generalize Tagged.toList _ = l at h2 k2
    cases h2
    exact k2 rfl
  | _, _, _, .access _ h1, h => by
    simp only [Expr.wide] at h
    have := Erases.tables h1 h
    exact this
  | _, _, _, .func h1, h => by
    simp only [Expr.wide] at h
    have := Erases.tables h1 h
    exact this
  | _, _, _, .polyValue h1, h => by
    simp only [Expr.wide] at h
    exact Erases.tables h1 h
  | _, _, _, .polyApply h1, h => by
    simp only [Expr.wide] at h
    exact Erases.tables h1 h
  | _, _, _, .list h1 h2, h => by
    simp only [Expr.wide, Bool.and_eq_true] at h
    exact ⟨Erases.tables h1 h.1, ErasesAll.tables h2 (Exprs.wide_all h.2)⟩
  | _, _, _, .literal _ h1 _, h => by
    simp only [Expr.wide] at h
    exact ⟨Erases.tables h1 h, trivial⟩
  | _, _, _, .abstractCast h1, h => by
    simp only [Expr.wide] at h
    exact Erases.tables h1 h
  | _, _, _, .abstractAccess h1, h => by
    simp only [Expr.wide] at h
    exact Erases.tables h1 h
  | _, _, _, .apply _ _ h1 h2, h => by
    simp only [Expr.wide, Bool.and_eq_true] at h
    exact ErasesArgs.tables h2 (Exprs.wide_all h.2) (Erases.tables h1 h.1)
  | _, _, _, .structValue _ _ h1, h => by
    simp only [Expr.wide, Bool.and_eq_true] at h
    exact ErasesAll.tables h1 (Exprs.wide_all h.2)
  | _, _, _, .abstractValue _ h1, h => by
    simp only [Expr.wide, Exprs.wide, Bool.and_eq_true] at h
    exact Erases.tables h1 h.2.1
theorem ErasesAll.tables : {Γ : Binders} → {es : List Expr} → {ts : Ns} → ErasesAll F Γ es ts → (∀ e ∈ es, e.wide = true) → ts.Tables
  | _, _, _, .nil, _ => trivial
  | _, _, _, .cons h1 h2, h => ⟨Erases.tables h1 (h _ (.head _)), ErasesAll.tables h2 fun e he => h e (.tail _ he)⟩
theorem ErasesTagged.tables : {Γ : Binders} → {es : List (Name × Expr)} → {ts : NTagged} → ErasesTagged F Γ es ts → (∀ e ∈ es, e.2.wide = true) → ts.Tables
  | _, _, _, .nil, _ => trivial
  | _, _, _, .cons h1 h2, h => ⟨Erases.tables h1 (h _ (.head _)), ErasesTagged.tables h2 fun e he => h e (.tail _ he)⟩
theorem ErasesDefault.tables : {Γ : Binders} → {d : Default} → {t : NDefault} → ErasesDefault F Γ d t → d.wide = true → t.Tables
  | _, _, _, .none, _ => trivial
  | _, _, _, .some h1, h => by
    simp only [Default.wide] at h
    exact Erases.tables h1 h
theorem ErasesArgs.tables : {Γ : Binders} → {t : N} → {es : List Expr} → {u : N} → ErasesArgs F Γ t es u → (∀ e ∈ es, e.wide = true) → t.Tables → u.Tables
  | _, _, _, _, .nil, _, ht => ht
  | _, _, _, _, .cons h1 h2, h, ht => ErasesArgs.tables h2 (fun e he => h e (.tail _ he)) ⟨ht, Erases.tables h1 (h _ (.head _))⟩
end

/-- The premise of C60, and of the theorems that build on it, for such programs. -/
theorem tables_of_wide {program : List Module} (h : ∀ m ∈ program, m.value.wide = true) {ts : List N} (he : All2 ErasesModule program ts) : ∀ t ∈ ts, t.Tables := by
  induction he with
  | nil => intro t ht; cases ht
  | cons h1 _ ih =>
    intro t ht
    rcases List.mem_cons.mp ht with rfl | ht
    · exact Erases.tables h1 (h _ (.head _))
    · exact ih (fun m hm => h m (.tail _ hm)) t ht

end Verif.Elab
