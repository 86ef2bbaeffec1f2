import Verif.Parse.File
import Verif.Elab.C16
import Verif.Load.Thm
import Verif.Text.Search
/-
The modules an expression refers to, in the abstract syntax, are those its text refers to.
-/
namespace Verif.Whole
open Parse
open Elab (Expr Exprs Tagged Binds Default Binding)

mutual
/-- The modules an expression refers to. -/
def emods : Expr → List (List Types.Name)
  | .typeOf e => emods e
  | .var _ => []
  | .letE bs b => bmods bs ++ emods b
  | .dataType _ fs => tmods fs
  | .dataAccess e _ => emods e
  | .structImplicit as => tmods as
  | .structCopy e as => emods e ++ tmods as
  | .unionValue t _ e => emods t ++ emods e
  | .select c cs d => emods c ++ tmods cs ++ dmods d
  | .funcType a r => emods a ++ emods r
  | .func _ t b => emods t ++ emods b
  | .polyValue _ _ b => emods b
  | .polyApply p a => emods p ++ emods a
  | .list f as => emods f ++ xmods as
  | .literal f _ => emods f
  | .modulePath p => [p]
  | .packageType _ => []
  | .abstractCast p t e => emods p ++ emods t ++ emods e
  | .abstractAccess e => emods e
  | .apply f as _ => emods f ++ xmods as
def xmods : Exprs → List (List Types.Name)
  | .nil => []
  | .cons e es => emods e ++ xmods es
def tmods : Tagged → List (List Types.Name)
  | .nil => []
  | .cons _ e rest => emods e ++ tmods rest
def bmods : Binds → List (List Types.Name)
  | .nil => []
  | .kind _ _ e rest => emods e ++ bmods rest
  | .type t _ e rest => emods t ++ emods e ++ bmods rest
def dmods : Default → List (List Types.Name)
  | .none => []
  | .some e => emods e
end

/-- The references in `l` are those in the text, `ps`. -/
def Same (l : List (List Types.Name)) (ps : List Text.Path) : Prop := ∀ q, q ∈ l ↔ ∃ p ∈ ps, astPath p = q

theorem Same.nil : Same [] [] := by intro q; simp
theorem Same.app {a b c d} (h1 : Same a c) (h2 : Same b d) : Same (a ++ b) (c ++ d) := by
  intro q
  simp only [List.mem_append, h1 q, h2 q]
  constructor
  · rintro (⟨p, h, e⟩ | ⟨p, h, e⟩)
    · exact ⟨p, .inl h, e⟩
    · exact ⟨p, .inr h, e⟩
  · rintro ⟨p, h | h, e⟩
    · exact .inl ⟨p, h, e⟩
    · exact .inr ⟨p, h, e⟩
theorem Same.perm {a b c} (h : Same a c) (hp : ∀ q, q ∈ b ↔ q ∈ a) : Same b c := fun q => (hp q).trans (h q)

def fmods (l : List (Types.Name × Expr)) : List (List Types.Name) := l.flatMap fun a => emods a.2
def lmods (l : List Expr) : List (List Types.Name) := l.flatMap emods
def annmods (b : Binding) : List (List Types.Name) := (match b.ann with | .inl _ => [] | .inr t => emods t) ++ emods b.expr
def bsmods (l : List Binding) : List (List Types.Name) := l.flatMap annmods

theorem xmods_toExprs (l : List Expr) : xmods (toExprs l) = lmods l := by
  induction l with
  | nil => rfl
  | cons e l ih => simp [toExprs, xmods, lmods, ih]
theorem tmods_toTagged (l : List (Types.Name × Expr)) : tmods (toTagged l) = fmods l := by
  induction l with
  | nil => rfl
  | cons a l ih => obtain ⟨x, e⟩ := a; simp [toTagged, tmods, fmods, ih]
theorem bmods_toBinds (l : List Binding) : bmods (toBinds l) = bsmods l := by
  induction l with
  | nil => rfl
  | cons a l ih => obtain ⟨k | t, x, e⟩ := a <;> simp [toBinds, bmods, bsmods, annmods, ih]
theorem emods_funcs (l : List (Types.Name × Expr)) (b : Expr) : emods (funcs l b) = fmods l ++ emods b := by
  induction l with
  | nil => rfl
  | cons a l ih => simp only [funcs, List.foldr_cons, emods, fmods, List.flatMap_cons] at ih ⊢; rw [ih]; simp
theorem emods_polys (l : List (Types.Kind × Types.Name)) (b : Expr) : emods (l.foldr (fun a b => .polyValue a.2 a.1 b) b) = emods b := by
  induction l with
  | nil => rfl
  | cons a l ih => simp only [List.foldr_cons, emods]; exact ih
theorem emods_funcTypes (l : List Expr) (b : Expr) : emods (l.foldr .funcType b) = lmods l ++ emods b := by
  induction l with
  | nil => rfl
  | cons a l ih => simp only [List.foldr_cons, emods, ih]; simp [lmods]
theorem emods_polyApply (l : List Expr) : ∀ p : Expr, emods (l.foldl .polyApply p) = emods p ++ lmods l := by
  induction l with
  | nil => intro p; simp [lmods]
  | cons a l ih => intro p; simp only [List.foldl_cons, ih, emods]; simp [lmods]

mutual
theorem same_expr : ∀ (s : SExpr) {e}, s.ast = some e → Same (emods e) s.mods
  | .typeOf s, e, h => by
    simp [SExpr.ast, Option.bind_eq_some_iff, -Prod.exists] at h; obtain ⟨a, h1, rfl⟩ := h
    have := same_expr s h1
    exact this
  | .var x, e, h => by
    simp [SExpr.ast, Option.bind_eq_some_iff, -Prod.exists] at h; subst h
    exact .nil
  | .modulePath p, e, h => by
    simp [SExpr.ast, Option.bind_eq_some_iff, -Prod.exists] at h; subst h
    intro q; simp [emods, SExpr.mods, eq_comm]
  | .structType fs, e, h => by
    simp [SExpr.ast, Option.bind_eq_some_iff, -Prod.exists] at h; obtain ⟨a, h1, rfl⟩ := h
    rw [emods, tmods_toTagged]; exact same_types0 fs h1
  | .apply f as, e, h => by
    simp [SExpr.ast, Option.bind_eq_some_iff, -Prod.exists] at h; obtain ⟨a, h1, b, h2, rfl⟩ := h
    rw [emods, xmods_toExprs]; exact (same_expr f h1).app (same_exprs0 as h2)
  | .struct as, e, h => by
    simp [SExpr.ast, Option.bind_eq_some_iff, -Prod.exists] at h; obtain ⟨a, h1, rfl⟩ := h
    rw [emods, tmods_toTagged]; exact same_implicits0 as h1
  | .access s x, e, h => by
    simp [SExpr.ast, Option.bind_eq_some_iff, -Prod.exists] at h; obtain ⟨a, h1, rfl⟩ := h
    have := same_expr s h1
    exact this
  | .copy s as, e, h => by
    simp [SExpr.ast, Option.bind_eq_some_iff, -Prod.exists] at h; obtain ⟨a, h1, b, h2, rfl⟩ := h
    rw [emods, tmods_toTagged]; exact (same_expr s h1).app (same_implicits as h2)
  | .unionType fs, e, h => by
    simp [SExpr.ast, Option.bind_eq_some_iff, -Prod.exists] at h; obtain ⟨a, h1, rfl⟩ := h
    rw [emods, tmods_toTagged]; exact same_types fs h1
  | .package p, e, h => by
    simp [SExpr.ast, Option.bind_eq_some_iff, -Prod.exists] at h; subst h
    exact .nil
  | .packageNone, e, h => by
    simp [SExpr.ast, Option.bind_eq_some_iff, -Prod.exists] at h; subst h
    exact .nil
  | .union t x s, e, h => by
    simp [SExpr.ast, Option.bind_eq_some_iff, -Prod.exists] at h; obtain ⟨a, h1, b, h2, rfl⟩ := h
    exact (same_expr t h1).app (same_expr s h2)
  | .select s cs, e, h => by
    simp [SExpr.ast, Option.bind_eq_some_iff, -Prod.exists] at h; obtain ⟨a, h1, b, h2, rfl⟩ := h
    rw [emods, tmods_toTagged, dmods, List.append_nil]; exact (same_expr s h1).app (same_tagged cs h2)
  | .selectDefault s cs d, e, h => by
    simp [SExpr.ast, Option.bind_eq_some_iff, -Prod.exists] at h; obtain ⟨a, h1, b, h2, c, h3, rfl⟩ := h
    rw [emods, tmods_toTagged, dmods]; exact ((same_expr s h1).app (same_tagged cs h2)).app (same_expr d h3)
  | .polyApply s as, e, h => by
    simp [SExpr.ast, Option.bind_eq_some_iff, -Prod.exists] at h; obtain ⟨b, h2, a, h1, rfl⟩ := h
    rw [emods_polyApply]; exact (same_expr s h1).app (same_exprs as h2)
  | .abstractAccess s, e, h => by
    simp [SExpr.ast, Option.bind_eq_some_iff, -Prod.exists] at h; obtain ⟨a, h1, rfl⟩ := h
    have := same_expr s h1
    exact this
  | .cast p t s, e, h => by
    simp [SExpr.ast, Option.bind_eq_some_iff, -Prod.exists] at h; obtain ⟨a, h1, b, h2, c, h3, rfl⟩ := h
    exact ((same_expr p h1).app (same_expr t h2)).app (same_expr s h3)
  | .list f as, e, h => by
    simp [SExpr.ast, Option.bind_eq_some_iff, -Prod.exists] at h; obtain ⟨a, h1, b, h2, rfl⟩ := h
    rw [emods, xmods_toExprs]; exact (same_expr f h1).app (same_exprs0 as h2)
  | .literal f w, e, h => by
    simp [SExpr.ast, Option.bind_eq_some_iff, -Prod.exists] at h; obtain ⟨a, h1, rfl⟩ := h
    have := same_expr f h1
    exact this
  | .block b, e, h => by
    simp [SExpr.ast, Option.bind_eq_some_iff, -Prod.exists] at h
    exact same_block b h
theorem same_block : ∀ (s : SBlock) {e}, s.ast = some e → Same (emods e) s.mods
  | .braces s, e, h => by
    simp [SBlock.ast, Option.bind_eq_some_iff, -Prod.exists] at h
    exact same_stmt s h
  | .funcType as b, e, h => by
    simp [SBlock.ast, Option.bind_eq_some_iff, -Prod.exists] at h; obtain ⟨a, h1, c, h2, rfl⟩ := h
    rw [emods_funcTypes]; exact (same_exprs as h1).app (same_block b h2)
  | .func as b, e, h => by
    simp [SBlock.ast, Option.bind_eq_some_iff, -Prod.exists] at h; obtain ⟨a, h1, c, h2, rfl⟩ := h
    rw [emods_funcs]; exact (same_types as h1).app (same_block b h2)
  | .poly as b, e, h => by
    simp [SBlock.ast, Option.bind_eq_some_iff, -Prod.exists] at h; obtain ⟨a, h1, rfl⟩ := h
    rw [emods_polys]; exact same_block b h1
theorem same_stmt : ∀ (s : SStmt) {e}, s.ast = some e → Same (emods e) s.mods
  | .expr s, e, h => by
    simp [SStmt.ast, Option.bind_eq_some_iff, -Prod.exists] at h
    exact same_expr s h
  | .letE bs s, e, h => by
    simp [SStmt.ast, Option.bind_eq_some_iff, -Prod.exists] at h; obtain ⟨a, h1, c, h2, rfl⟩ := h
    rw [emods, bmods_toBinds]; exact (same_binds bs h1).app (same_stmt s h2)
  | .bind as f s, e, h => by
    simp [SStmt.ast, Option.bind_eq_some_iff, -Prod.exists] at h; obtain ⟨a, h1, b, h2, c, h3, rfl⟩ := h
    have h := ((same_types as h2).app (same_expr f h1)).app (same_stmt s h3)
    refine h.perm fun q => ?_
    simp only [emods, xmods_toExprs, lmods, List.flatMap_cons, List.flatMap_nil, List.append_nil, emods_funcs, List.mem_append]
    tauto
  | .default f s, e, h => by
    simp [SStmt.ast, Option.bind_eq_some_iff, -Prod.exists] at h; obtain ⟨a, h1, b, h2, h3⟩ := h
    have h := (same_expr f h1).app (same_stmt s h2)
    revert h3
    unfold withDefault
    split
    · rename_i c cs _
      intro h3
      cases h3
      refine h.perm fun q => ?_
      simp [emods, dmods]
    · intro h3; cases h3
theorem same_exprs : ∀ (s : SExprs) {l}, s.ast = some l → Same (lmods l) s.mods
  | .one s, e, h => by
    simp [SExprs.ast, Option.bind_eq_some_iff, -Prod.exists] at h; obtain ⟨a, h1, rfl⟩ := h
    simpa [lmods, SExprs.mods] using same_expr s h1
  | .more ss s, e, h => by
    simp [SExprs.ast, Option.bind_eq_some_iff, -Prod.exists] at h; obtain ⟨a, h1, b, h2, rfl⟩ := h
    simpa [lmods, SExprs.mods] using (same_exprs ss h1).app (same_expr s h2)
theorem same_exprs0 : ∀ (s : SExprs0) {l}, s.ast = some l → Same (lmods l) s.mods
  | .none, e, h => by
    simp [SExprs0.ast, Option.bind_eq_some_iff, -Prod.exists] at h; subst h; exact .nil
  | .some s, e, h => by
    simp [SExprs0.ast, Option.bind_eq_some_iff, -Prod.exists] at h; exact same_exprs s h
theorem same_type : ∀ (s : SType) {l}, s.ast = some l → Same (emods l.2) s.mods
  | .mk t x, e, h => by
    simp [SType.ast, Option.bind_eq_some_iff, -Prod.exists] at h; obtain ⟨a, h1, rfl⟩ := h
    have := same_expr t h1
    exact this
theorem same_types : ∀ (s : STypes) {l}, s.ast = some l → Same (fmods l) s.mods
  | .one s, e, h => by
    simp [STypes.ast, Option.bind_eq_some_iff, -Prod.exists] at h; obtain ⟨a, h1, rfl⟩ := h
    simpa [fmods, STypes.mods] using same_type s h1
  | .more ss s, e, h => by
    simp [STypes.ast, Option.bind_eq_some_iff, -Prod.exists] at h; obtain ⟨a, h1, b, h2, rfl⟩ := h
    simpa [fmods, STypes.mods] using (same_types ss h1).app (same_type s h2)
theorem same_types0 : ∀ (s : STypes0) {l}, s.ast = some l → Same (fmods l) s.mods
  | .none, e, h => by
    simp [STypes0.ast, Option.bind_eq_some_iff, -Prod.exists] at h; subst h; exact .nil
  | .some s, e, h => by
    simp [STypes0.ast, Option.bind_eq_some_iff, -Prod.exists] at h; exact same_types s h
theorem same_implicit : ∀ (s : SImplicit) {l}, s.ast = some l → Same (emods l.2) s.mods
  | .var x, e, h => by
    simp [SImplicit.ast, Option.bind_eq_some_iff, -Prod.exists] at h; subst h; exact .nil
  | .colon x s, e, h => by
    simp [SImplicit.ast, Option.bind_eq_some_iff, -Prod.exists] at h; obtain ⟨a, h1, rfl⟩ := h
    have := same_expr s h1
    exact this
theorem same_implicits : ∀ (s : SImplicits) {l}, s.ast = some l → Same (fmods l) s.mods
  | .one s, e, h => by
    simp [SImplicits.ast, Option.bind_eq_some_iff, -Prod.exists] at h; obtain ⟨a, h1, rfl⟩ := h
    simpa [fmods, SImplicits.mods] using same_implicit s h1
  | .more ss s, e, h => by
    simp [SImplicits.ast, Option.bind_eq_some_iff, -Prod.exists] at h; obtain ⟨a, h1, b, h2, rfl⟩ := h
    simpa [fmods, SImplicits.mods] using (same_implicits ss h1).app (same_implicit s h2)
theorem same_implicits0 : ∀ (s : SImplicits0) {l}, s.ast = some l → Same (fmods l) s.mods
  | .none, e, h => by
    simp [SImplicits0.ast, Option.bind_eq_some_iff, -Prod.exists] at h; subst h; exact .nil
  | .some s, e, h => by
    simp [SImplicits0.ast, Option.bind_eq_some_iff, -Prod.exists] at h; exact same_implicits s h
theorem same_tag : ∀ (s : STag) {l}, s.ast = some l → Same (emods l.2) s.mods
  | .mk t s, e, h => by
    simp [STag.ast, Option.bind_eq_some_iff, -Prod.exists] at h; obtain ⟨a, h1, rfl⟩ := h
    have := same_expr s h1
    exact this
theorem same_tagged : ∀ (s : STagged) {l}, s.ast = some l → Same (fmods l) s.mods
  | .one s, e, h => by
    simp [STagged.ast, Option.bind_eq_some_iff, -Prod.exists] at h; obtain ⟨a, h1, rfl⟩ := h
    simpa [fmods, STagged.mods] using same_tag s h1
  | .more ss s, e, h => by
    simp [STagged.ast, Option.bind_eq_some_iff, -Prod.exists] at h; obtain ⟨a, h1, b, h2, rfl⟩ := h
    simpa [fmods, STagged.mods] using (same_tagged ss h1).app (same_tag s h2)
theorem same_binds : ∀ (s : SBinds) {l}, s.ast = some l → Same (bsmods l) s.mods
  | .type t x s, e, h => by
    simp [SBinds.ast, Option.bind_eq_some_iff, -Prod.exists] at h; obtain ⟨a, h1, b, h2, rfl⟩ := h
    simpa [bsmods, annmods, SBinds.mods] using (same_expr t h1).app (same_expr s h2)
  | .kind k x s, e, h => by
    simp [SBinds.ast, Option.bind_eq_some_iff, -Prod.exists] at h; obtain ⟨a, h1, rfl⟩ := h
    simpa [bsmods, annmods, SBinds.mods] using same_expr s h1
  | .moreType bs t x s, e, h => by
    simp [SBinds.ast, Option.bind_eq_some_iff, -Prod.exists] at h; obtain ⟨a, h1, b, h2, c, h3, rfl⟩ := h
    simpa [bsmods, annmods, SBinds.mods] using ((same_binds bs h1).app (same_expr t h2)).app (same_expr s h3)
  | .moreKind bs k x s, e, h => by
    simp [SBinds.ast, Option.bind_eq_some_iff, -Prod.exists] at h; obtain ⟨a, h1, b, h2, rfl⟩ := h
    simpa [bsmods, annmods, SBinds.mods] using (same_binds bs h1).app (same_expr s h2)
end

end Verif.Whole
