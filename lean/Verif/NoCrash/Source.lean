import Verif.NoCrash.Main
/-
Every select that can be written has a choice.
-/
namespace Verif.NoCrash
open Parse
open Elab (Expr Exprs Tagged Binds Default Binding)

def LCh (l : List Expr) : Prop := ∀ e ∈ l, e.chosen = true
def FCh (l : List (Types.Name × Expr)) : Prop := ∀ a ∈ l, a.2.chosen = true
def BCh (l : List Binding) : Prop := ∀ b ∈ l, b.expr.chosen = true ∧ ∀ t, b.ann = .inr t → t.chosen = true

theorem and2 {a b : Bool} (ha : a = true) (hb : b = true) : (a && b) = true := by rw [ha, hb]; rfl

theorem snoc {α : Type} {P : α → Prop} {l : List α} {a : α} (hl : ∀ x ∈ l, P x) (ha : P a) : ∀ x ∈ l ++ [a], P x := by
  intro x hx
  rcases List.mem_append.mp hx with h | h
  · exact hl x h
  · simp only [List.mem_singleton] at h; subst h; exact ha

theorem ch_toExprs : {l : List Expr} → LCh l → (toExprs l).chosen = true
  | [], _ => rfl
  | e :: l, h => and2 (h e (by simp)) (ch_toExprs fun x hx => h x (by simp [hx]))
theorem ch_toTagged : {l : List (Types.Name × Expr)} → FCh l → (toTagged l).chosen = true
  | [], _ => rfl
  | (x, e) :: l, h => and2 (h (x, e) (by simp)) (ch_toTagged fun x hx => h x (by simp [hx]))
theorem ch_toBinds : {l : List Binding} → BCh l → (toBinds l).chosen = true
  | [], _ => rfl
  | ⟨.inl k, x, e⟩ :: l, h => and2 (h ⟨.inl k, x, e⟩ (by simp)).1 (ch_toBinds fun x hx => h x (by simp [hx]))
  | ⟨.inr t, x, e⟩ :: l, h => and2 (and2 ((h ⟨.inr t, x, e⟩ (by simp)).2 t rfl) (h ⟨.inr t, x, e⟩ (by simp)).1) (ch_toBinds fun x hx => h x (by simp [hx]))
theorem ch_funcs : (l : List (Types.Name × Expr)) → (b : Expr) → FCh l → b.chosen = true → (funcs l b).chosen = true
  | [], _, _, h => h
  | a :: l, b, hl, h => and2 (hl a (by simp)) (ch_funcs l b (fun x hx => hl x (by simp [hx])) h)
theorem ch_polys : (l : List (Types.Kind × Types.Name)) → (b : Expr) → b.chosen = true → (l.foldr (fun a b => .polyValue a.2 a.1 b) b).chosen = true
  | [], _, h => h
  | _ :: l, b, h => ch_polys l b h
theorem ch_funcTypes : (l : List Expr) → (b : Expr) → LCh l → b.chosen = true → (l.foldr .funcType b).chosen = true
  | [], _, _, h => h
  | a :: l, b, hl, h => and2 (hl a (by simp)) (ch_funcTypes l b (fun x hx => hl x (by simp [hx])) h)
theorem ch_polyApply : (l : List Expr) → (p : Expr) → p.chosen = true → LCh l → (l.foldl .polyApply p).chosen = true
  | [], _, h, _ => h
  | a :: l, p, h, hl => ch_polyApply l (.polyApply p a) (and2 h (hl a (by simp))) fun x hx => hl x (by simp [hx])
theorem ch_select {c : Expr} {l : List (Types.Name × Expr)} {d : Default} (hc : c.chosen = true) (hl : FCh l) (hne : l ≠ []) (hd : d.chosen = true) : (Expr.select c (toTagged l) d).chosen = true := by
  cases l with
  | nil => exact absurd rfl hne
  | cons a l => exact and2 (and2 hc (ch_toTagged hl)) hd
theorem ch_default {a b e : Expr} (ha : a.chosen = true) (hb : b.chosen = true) (h : withDefault a b = some e) : e.chosen = true := by
  rcases withDefault_cases a b with ⟨c, cs, rfl, h1⟩ | ⟨-, h1⟩
  · rw [h1] at h
    cases h
    cases cs with
    | nil => simp [Expr.chosen] at ha
    | cons x e cs =>
      simp only [Expr.chosen, Default.chosen, Bool.and_true] at ha ⊢
      exact and2 ha hb
  · rw [h1] at h; cases h

theorem tagged_ne (s : STagged) {l} (h : s.ast = some l) : l ≠ [] := by
  cases s with
  | one s =>
    simp [STagged.ast, Option.bind_eq_some_iff, -Prod.exists] at h; obtain ⟨a, h1, rfl⟩ := h
    simp
  | more ss s =>
    simp [STagged.ast, Option.bind_eq_some_iff, -Prod.exists] at h; obtain ⟨a, h1, b, h2, rfl⟩ := h
    simp

mutual
theorem ch_expr : ∀ (s : SExpr) {e}, s.ast = some e → e.chosen = true
  | .typeOf s, e, h => by
    simp [SExpr.ast, Option.bind_eq_some_iff, -Prod.exists] at h; obtain ⟨a, h1, rfl⟩ := h
    have := ch_expr s h1
    exact this
  | .var x, e, h => by
    simp [SExpr.ast, Option.bind_eq_some_iff, -Prod.exists] at h; subst h
    rfl
  | .modulePath p, e, h => by
    simp [SExpr.ast, Option.bind_eq_some_iff, -Prod.exists] at h; subst h
    rfl
  | .structType fs, e, h => by
    simp [SExpr.ast, Option.bind_eq_some_iff, -Prod.exists] at h; obtain ⟨a, h1, rfl⟩ := h
    exact ch_toTagged (ch_types0 fs h1)
  | .apply f as, e, h => by
    simp [SExpr.ast, Option.bind_eq_some_iff, -Prod.exists] at h; obtain ⟨a, h1, b, h2, rfl⟩ := h
    exact and2 (ch_expr f h1) (ch_toExprs (ch_exprs0 as h2))
  | .struct as, e, h => by
    simp [SExpr.ast, Option.bind_eq_some_iff, -Prod.exists] at h; obtain ⟨a, h1, rfl⟩ := h
    exact ch_toTagged (ch_implicits0 as h1)
  | .access s x, e, h => by
    simp [SExpr.ast, Option.bind_eq_some_iff, -Prod.exists] at h; obtain ⟨a, h1, rfl⟩ := h
    have := ch_expr s h1
    exact this
  | .copy s as, e, h => by
    simp [SExpr.ast, Option.bind_eq_some_iff, -Prod.exists] at h; obtain ⟨a, h1, b, h2, rfl⟩ := h
    exact and2 (ch_expr s h1) (ch_toTagged (ch_implicits as h2))
  | .unionType fs, e, h => by
    simp [SExpr.ast, Option.bind_eq_some_iff, -Prod.exists] at h; obtain ⟨a, h1, rfl⟩ := h
    exact ch_toTagged (ch_types fs h1)
  | .package p, e, h => by
    simp [SExpr.ast, Option.bind_eq_some_iff, -Prod.exists] at h; subst h
    rfl
  | .packageNone, e, h => by
    simp [SExpr.ast, Option.bind_eq_some_iff, -Prod.exists] at h; subst h
    rfl
  | .union t x s, e, h => by
    simp [SExpr.ast, Option.bind_eq_some_iff, -Prod.exists] at h; obtain ⟨a, h1, b, h2, rfl⟩ := h
    exact and2 (ch_expr t h1) (ch_expr s h2)
  | .select s cs, e, h => by
    simp [SExpr.ast, Option.bind_eq_some_iff, -Prod.exists] at h; obtain ⟨a, h1, b, h2, rfl⟩ := h
    exact ch_select (ch_expr s h1) (ch_tagged cs h2) (tagged_ne cs h2) rfl
  | .selectDefault s cs d, e, h => by
    simp [SExpr.ast, Option.bind_eq_some_iff, -Prod.exists] at h; obtain ⟨a, h1, b, h2, c, h3, rfl⟩ := h
    exact ch_select (ch_expr s h1) (ch_tagged cs h2) (tagged_ne cs h2) (ch_expr d h3)
  | .polyApply s as, e, h => by
    simp [SExpr.ast, Option.bind_eq_some_iff, -Prod.exists] at h; obtain ⟨b, h2, a, h1, rfl⟩ := h
    exact ch_polyApply b a (ch_expr s h1) (ch_exprs as h2)
  | .abstractAccess s, e, h => by
    simp [SExpr.ast, Option.bind_eq_some_iff, -Prod.exists] at h; obtain ⟨a, h1, rfl⟩ := h
    have := ch_expr s h1
    exact this
  | .cast p t s, e, h => by
    simp [SExpr.ast, Option.bind_eq_some_iff, -Prod.exists] at h; obtain ⟨a, h1, b, h2, c, h3, rfl⟩ := h
    exact and2 (and2 (ch_expr p h1) (ch_expr t h2)) (ch_expr s h3)
  | .list f as, e, h => by
    simp [SExpr.ast, Option.bind_eq_some_iff, -Prod.exists] at h; obtain ⟨a, h1, b, h2, rfl⟩ := h
    exact and2 (ch_expr f h1) (ch_toExprs (ch_exprs0 as h2))
  | .literal f w, e, h => by
    simp [SExpr.ast, Option.bind_eq_some_iff, -Prod.exists] at h; obtain ⟨a, h1, rfl⟩ := h
    have := ch_expr f h1
    exact this
  | .block b, e, h => by
    simp [SExpr.ast, Option.bind_eq_some_iff, -Prod.exists] at h
    exact ch_block b h
theorem ch_block : ∀ (s : SBlock) {e}, s.ast = some e → e.chosen = true
  | .braces s, e, h => by
    simp [SBlock.ast, Option.bind_eq_some_iff, -Prod.exists] at h
    exact ch_stmt s h
  | .funcType as b, e, h => by
    simp [SBlock.ast, Option.bind_eq_some_iff, -Prod.exists] at h; obtain ⟨a, h1, c, h2, rfl⟩ := h
    exact ch_funcTypes a c (ch_exprs as h1) (ch_block b h2)
  | .func as b, e, h => by
    simp [SBlock.ast, Option.bind_eq_some_iff, -Prod.exists] at h; obtain ⟨a, h1, c, h2, rfl⟩ := h
    exact ch_funcs a c (ch_types as h1) (ch_block b h2)
  | .poly as b, e, h => by
    simp [SBlock.ast, Option.bind_eq_some_iff, -Prod.exists] at h; obtain ⟨a, h1, rfl⟩ := h
    exact ch_polys _ a (ch_block b h1)
theorem ch_stmt : ∀ (s : SStmt) {e}, s.ast = some e → e.chosen = true
  | .expr s, e, h => by
    simp [SStmt.ast, Option.bind_eq_some_iff, -Prod.exists] at h
    exact ch_expr s h
  | .letE bs s, e, h => by
    simp [SStmt.ast, Option.bind_eq_some_iff, -Prod.exists] at h; obtain ⟨a, h1, c, h2, rfl⟩ := h
    exact and2 (ch_toBinds (ch_binds bs h1)) (ch_stmt s h2)
  | .bind as f s, e, h => by
    simp [SStmt.ast, Option.bind_eq_some_iff, -Prod.exists] at h; obtain ⟨a, h1, b, h2, c, h3, rfl⟩ := h
    exact and2 (ch_expr f h1) (ch_toExprs (fun e he => by simp only [List.mem_singleton] at he; subst he; exact ch_funcs b c (ch_types as h2) (ch_stmt s h3)))
  | .default f s, e, h => by
    simp [SStmt.ast, Option.bind_eq_some_iff, -Prod.exists] at h; obtain ⟨a, h1, b, h2, h3⟩ := h
    exact ch_default (ch_expr f h1) (ch_stmt s h2) h3
theorem ch_exprs : ∀ (s : SExprs) {l}, s.ast = some l → LCh l
  | .one s, e, h => by
    simp [SExprs.ast, Option.bind_eq_some_iff, -Prod.exists] at h; obtain ⟨a, h1, rfl⟩ := h
    exact fun e he => by simp only [List.mem_singleton] at he; subst he; exact ch_expr s h1
  | .more ss s, e, h => by
    simp [SExprs.ast, Option.bind_eq_some_iff, -Prod.exists] at h; obtain ⟨a, h1, b, h2, rfl⟩ := h
    exact snoc (ch_exprs ss h1) (ch_expr s h2)
theorem ch_exprs0 : ∀ (s : SExprs0) {l}, s.ast = some l → LCh l
  | .none, e, h => by
    simp [SExprs0.ast, Option.bind_eq_some_iff, -Prod.exists] at h; subst h; first | rfl | exact fun _ h => nomatch h
  | .some s, e, h => by
    simp [SExprs0.ast, Option.bind_eq_some_iff, -Prod.exists] at h; exact ch_exprs s h
theorem ch_type : ∀ (s : SType) {l}, s.ast = some l → l.2.chosen = true
  | .mk t x, e, h => by
    simp [SType.ast, Option.bind_eq_some_iff, -Prod.exists] at h; obtain ⟨a, h1, rfl⟩ := h
    have := ch_expr t h1
    exact this
theorem ch_types : ∀ (s : STypes) {l}, s.ast = some l → FCh l
  | .one s, e, h => by
    simp [STypes.ast, Option.bind_eq_some_iff, -Prod.exists] at h; obtain ⟨a, h1, rfl⟩ := h
    exact fun e he => by simp only [List.mem_singleton] at he; subst he; exact ch_type s h1
  | .more ss s, e, h => by
    simp [STypes.ast, Option.bind_eq_some_iff, -Prod.exists] at h; obtain ⟨a, h1, b, h2, rfl⟩ := h
    exact snoc (ch_types ss h1) (ch_type s h2)
theorem ch_types0 : ∀ (s : STypes0) {l}, s.ast = some l → FCh l
  | .none, e, h => by
    simp [STypes0.ast, Option.bind_eq_some_iff, -Prod.exists] at h; subst h; first | rfl | exact fun _ h => nomatch h
  | .some s, e, h => by
    simp [STypes0.ast, Option.bind_eq_some_iff, -Prod.exists] at h; exact ch_types s h
theorem ch_implicit : ∀ (s : SImplicit) {l}, s.ast = some l → l.2.chosen = true
  | .var x, e, h => by
    simp [SImplicit.ast, Option.bind_eq_some_iff, -Prod.exists] at h; subst h; first | rfl | exact fun _ h => nomatch h
  | .colon x s, e, h => by
    simp [SImplicit.ast, Option.bind_eq_some_iff, -Prod.exists] at h; obtain ⟨a, h1, rfl⟩ := h
    have := ch_expr s h1
    exact this
theorem ch_implicits : ∀ (s : SImplicits) {l}, s.ast = some l → FCh l
  | .one s, e, h => by
    simp [SImplicits.ast, Option.bind_eq_some_iff, -Prod.exists] at h; obtain ⟨a, h1, rfl⟩ := h
    exact fun e he => by simp only [List.mem_singleton] at he; subst he; exact ch_implicit s h1
  | .more ss s, e, h => by
    simp [SImplicits.ast, Option.bind_eq_some_iff, -Prod.exists] at h; obtain ⟨a, h1, b, h2, rfl⟩ := h
    exact snoc (ch_implicits ss h1) (ch_implicit s h2)
theorem ch_implicits0 : ∀ (s : SImplicits0) {l}, s.ast = some l → FCh l
  | .none, e, h => by
    simp [SImplicits0.ast, Option.bind_eq_some_iff, -Prod.exists] at h; subst h; first | rfl | exact fun _ h => nomatch h
  | .some s, e, h => by
    simp [SImplicits0.ast, Option.bind_eq_some_iff, -Prod.exists] at h; exact ch_implicits s h
theorem ch_tag : ∀ (s : STag) {l}, s.ast = some l → l.2.chosen = true
  | .mk t s, e, h => by
    simp [STag.ast, Option.bind_eq_some_iff, -Prod.exists] at h; obtain ⟨a, h1, rfl⟩ := h
    have := ch_expr s h1
    exact this
theorem ch_tagged : ∀ (s : STagged) {l}, s.ast = some l → FCh l
  | .one s, e, h => by
    simp [STagged.ast, Option.bind_eq_some_iff, -Prod.exists] at h; obtain ⟨a, h1, rfl⟩ := h
    exact fun e he => by simp only [List.mem_singleton] at he; subst he; exact ch_tag s h1
  | .more ss s, e, h => by
    simp [STagged.ast, Option.bind_eq_some_iff, -Prod.exists] at h; obtain ⟨a, h1, b, h2, rfl⟩ := h
    exact snoc (ch_tagged ss h1) (ch_tag s h2)
theorem ch_binds : ∀ (s : SBinds) {l}, s.ast = some l → BCh l
  | .type t x s, e, h => by
    simp [SBinds.ast, Option.bind_eq_some_iff, -Prod.exists] at h; obtain ⟨a, h1, b, h2, rfl⟩ := h
    exact fun e he => by simp only [List.mem_singleton] at he; subst he; exact ⟨ch_expr s h2, fun t ht => by cases ht; exact ch_expr t h1⟩
  | .kind k x s, e, h => by
    simp [SBinds.ast, Option.bind_eq_some_iff, -Prod.exists] at h; obtain ⟨a, h1, rfl⟩ := h
    exact fun e he => by simp only [List.mem_singleton] at he; subst he; exact ⟨ch_expr s h1, fun t ht => by cases ht⟩
  | .moreType bs t x s, e, h => by
    simp [SBinds.ast, Option.bind_eq_some_iff, -Prod.exists] at h; obtain ⟨a, h1, b, h2, c, h3, rfl⟩ := h
    exact snoc (ch_binds bs h1) ⟨ch_expr s h3, fun t ht => by cases ht; exact ch_expr t h2⟩
  | .moreKind bs k x s, e, h => by
    simp [SBinds.ast, Option.bind_eq_some_iff, -Prod.exists] at h; obtain ⟨a, h1, b, h2, rfl⟩ := h
    exact snoc (ch_binds bs h1) ⟨ch_expr s h2, fun t ht => by cases ht⟩
end


theorem loaded_fine {fs : Whole.Files} {roots root program} (h : Whole.FbleLoad fs roots root (some program)) (hs : ∀ m ∈ program, m.2.2.simple = true) :
    (∀ m ∈ Whole.modules program, m.value.simple = true ∧ m.value.chosen = true) ∧ ∀ m ∈ Whole.modules program, ∀ p ∈ Whole.emods m.value, p ∈ m.deps := by
  obtain ⟨-, -, h3, h4⟩ := Whole.C70_loaded h
  constructor
  · intro m hm
    simp only [Whole.modules, List.mem_map] at hm
    obtain ⟨x, hx, rfl⟩ := hm
    obtain ⟨f, text, s, rest, -, -, -, e, -⟩ := h3 x hx
    exact ⟨hs x hx, ch_stmt s e⟩
  · intro m hm p hp
    simp only [Whole.modules, List.mem_map] at hm
    obtain ⟨x, hx, rfl⟩ := hm
    obtain ⟨pre, post, e⟩ := List.append_of_mem hx
    obtain ⟨m', -, g1, g2⟩ := (h4 pre x post e p).mp hp
    exact List.mem_map.mpr ⟨m'.1, g1, g2⟩

/-- C71, from the source files: when the type checker gets a program that was loaded from files, it does not crash if there is no polymorphism and no struct copy in them. -/
theorem C71_loaded {fs : Whole.Files} {roots root program} (h : Whole.FbleLoad fs roots root (some program)) (hs : ∀ m ∈ program, m.2.2.simple = true) (n : Nat) :
    Elab.tcProgram n (Whole.modules program) ≠ .fail :=
  C71_no_crash (loaded_fine h hs).1 (loaded_fine h hs).2 n

/-- C72, from the source files. -/
theorem C72_loaded {fs : Whole.Files} {roots root program} (h : Whole.FbleLoad fs roots root (some program)) (hs : ∀ m ∈ program, m.2.2.simple = true) :
    ∃ N, ∀ n, N ≤ n → ∃ r, Elab.tcProgram n (Whole.modules program) = .ok r :=
  ⟨_, fun n hn => C72_ends (loaded_fine h hs).1 (loaded_fine h hs).2 n hn⟩

end Verif.NoCrash
