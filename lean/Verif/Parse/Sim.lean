import Verif.Parse.Tree
import Verif.Parse.Model
/-
The actions of parse.y build what Parse/Syntax.lean says.
-/
namespace Verif.Parse
open Text (Token Str ch)
open Elab (Expr Exprs Tagged Binds Default Binding)

/-! ### Derivations are nodes -/

abbrev NDer := Der Node.tok build
abbrev NDers := Ders Node.tok build

mutual
theorem der_node {x w v h} (hx : x ≠ n_accept) (hd : NDer x w v h) : v.sym = x ∧ v.toks = w ∧ v.height = h := by
  match hd with
  | .leaf t => exact ⟨rfl, rfl, rfl⟩
  | .node (r := r) hds hb =>
    have hr : r ≠ .accept := by rintro rfl; exact hx rfl
    have hno : n_accept ∉ r.rhs := by cases r <;> decide
    obtain ⟨h1, h2, h3⟩ := ders_nodes hno hds
    obtain ⟨v', ha⟩ := app_of_syms hr h1
    have : v' = _ := Option.some.inj (ha.build.symm.trans hb)
    subst this
    exact ⟨ha.sym, by rw [ha.toks, h2], by rw [ha.height, h3]⟩
theorem ders_nodes {xs w vs hs} (hx : n_accept ∉ xs) (hd : NDers xs w vs hs) :
    vs.map Node.sym = xs ∧ (vs.map Node.toks).flatten = w ∧ vs.map Node.height = hs := by
  match hd with
  | .nil => exact ⟨rfl, rfl, rfl⟩
  | .cons h hs =>
    obtain ⟨h1, h2, h3⟩ := der_node (fun e => hx (by simp [e])) h
    obtain ⟨g1, g2, g3⟩ := ders_nodes (fun e => hx (by simp [e])) hs
    simp [h1, h2, h3, g1, g2, g3]
end

theorem rhs_no_accept (r : Rule) : n_accept ∉ r.rhs := by cases r <;> decide

theorem total : Total Node.tok build := by
  intro r w vs hs hr hds
  obtain ⟨v, ha⟩ := app_of_syms hr (ders_nodes (rhs_no_accept r) hds).1
  exact ⟨v, ha.build⟩

/-! ### Values -/

/-- The value the parser has for a node. -/
def Node.val : Node → Option Val
  | .tok t => some (tokVal t)
  | .name x => some (.name x.ast)
  | .path p => some (.modulePath p.path)
  | .modulePath p => some (.modulePath p.path)
  | .nkind k => some (.kind k.ast)
  | .tkind k => some (.kind k.ast)
  | .kind k => some (.kind k.ast)
  | .tkinds ks => some (.kinds ks.ast)
  | .taggedKinds ks => some (.taggedKinds ks.ast)
  | .expr e => e.ast.map .expr
  | .block e => e.ast.map .expr
  | .stmt e => e.ast.map .expr
  | .exprs es => es.ast.map .exprs
  | .exprs0 es => es.ast.map .exprs
  | .type t => t.ast.map fun t => .taggedType t.swap
  | .types ts => ts.ast.map fun ts => .taggedTypes (ts.map Prod.swap)
  | .types0 ts => ts.ast.map fun ts => .taggedTypes (ts.map Prod.swap)
  | .implicit t => t.ast.map .taggedExpr
  | .implicits ts => ts.ast.map .taggedExprs
  | .implicits0 ts => ts.ast.map .taggedExprs
  | .tag t => t.ast.map .taggedExpr
  | .tagged ts => ts.ast.map .taggedExprs
  | .binds bs => bs.ast.map .bindings
  | .program s => s.ast.map fun _ => .nothing
  | .start _ => some .nothing

/-- The modules a node refers to. -/
def Node.mods : Node → List Text.Path
  | .expr e => e.mods
  | .block e => e.mods
  | .stmt e => e.mods
  | .exprs es => es.mods
  | .exprs0 es => es.mods
  | .type t => t.mods
  | .types ts => ts.mods
  | .types0 ts => ts.mods
  | .implicit t => t.mods
  | .implicits ts => ts.mods
  | .implicits0 ts => ts.mods
  | .tag t => t.mods
  | .tagged ts => ts.mods
  | .binds bs => bs.mods
  | .program s => s.mods
  | .start p => [p.path]
  | _ => []

/-- The program a node is. -/
def Node.result : Node → Option Expr
  | .program s => s.ast
  | _ => none

theorem exprV_eq (l : List Expr) : exprV l = toExprs l := by
  induction l with
  | nil => rfl
  | cons _ _ ih => simp [exprV, toExprs, ih]

theorem typeV_eq (l : List (Types.Name × Expr)) : typeV (l.map Prod.swap) = toTagged l := by
  induction l with
  | nil => rfl
  | cons _ _ ih => simp [typeV, toTagged, ih]

theorem taggedV_eq (l : List (Types.Name × Expr)) : taggedV l = toTagged l := by
  induction l with
  | nil => rfl
  | cons _ _ ih => simp [taggedV, toTagged, ih]

theorem bindingV_eq (l : List Binding) : bindingV l = toBinds l := by
  induction l with
  | nil => rfl
  | cons b _ ih =>
    obtain ⟨k | t, x, e⟩ := b <;> simp [bindingV, toBinds, ih]

theorem polyKinds_eq (l : List Types.Kind) (k) : polyKinds l k = l.foldr .poly k := by
  simp [polyKinds]

theorem funcValues_eq (l : List (Types.Name × Expr)) (e) : funcValues (l.map Prod.swap) e = funcs l e := by
  simp only [funcValues, funcs, List.foldl_reverse]
  induction l with
  | nil => rfl
  | cons _ _ ih => simp [ih]

theorem cname_eq (n : Text.Name) : cname n = astName n := rfl

theorem cpath_eq (p : Text.Path) : cpath p = astPath p := rfl

/-- The values on the right hand side. -/
inductive Vals : List Node → List Val → Prop where
  | nil : Vals [] []
  | cons {v c vs cs} : v.val = some c → Vals vs cs → Vals (v :: vs) (c :: cs)

/-- `*deps` after an action. -/
def depsAfter (r : Rule) (v : Node) (deps : List Text.Path) : List Text.Path :=
  match r with
  | .startPath => deps ++ v.mods
  | .exprModule => v.mods.foldl addDep deps
  | _ => deps

/-- `*result` after an action. -/
def resultAfter (r : Rule) (v : Node) (result : Option Expr) : Option Expr :=
  match r with
  | .startProgram => v.result
  | _ => result

theorem withDefault_cases (e d : Expr) : (∃ c cs, e = .select c cs .none ∧ withDefault e d = some (.select c cs (.some d))) ∨
    ((∀ c cs, e ≠ .select c cs .none) ∧ withDefault e d = none) := by
  unfold withDefault
  split
  · exact .inl ⟨_, _, rfl, rfl⟩
  · rename_i h
    exact .inr ⟨fun c cs he => h _ _ he, rfl⟩

set_option linter.unusedSimpArgs false in
/-- The actions compute the values. -/
theorem App.act {r vs v cs} (h : App r vs v) (hv : Vals vs cs) (st : St) :
    (∃ c s', act r cs st = .ok c s' ∧ v.val = some c ∧ s'.deps = depsAfter r v st.deps ∧ s'.result = resultAfter r v st.result) ∨
    (act r cs st = .yyerror st ∧ v.val = none) := by
  cases h
  case stmtDefault e s =>
    casesm* Vals _ _
    simp only [Node.val, Option.map_eq_some_iff, Option.some.injEq] at *
    casesm* _ ∧ _, ∃ _, _
    subst_vars
    rename_i e' d he hd
    rcases withDefault_cases e' d with ⟨c, cs, rfl, hw⟩ | ⟨hne, hw⟩
    · left; simp [Parse.act, expr, he, hd, SStmt.ast, hw, depsAfter, resultAfter]
    · right
      refine ⟨?_, by simp [he, hd, SStmt.ast, hw]⟩
      simp only [Parse.act, expr, List.getElem?_cons_zero, List.getElem?_cons_succ, Nat.reduceSub]
  all_goals
    refine .inl ?_
    casesm* Vals _ _
    simp only [Node.val, Option.map_eq_some_iff, Option.some.injEq] at *
    try casesm* _ ∧ _, ∃ _, _
    subst_vars
    simp_all [Parse.act, value, word, name, path, kind, kinds, taggedKinds, expr, exprs, Parse.taggedType, taggedTypes, Parse.taggedExpr, taggedExprs,
      bindings, tokVal, exprV_eq, typeV_eq, taggedV_eq, bindingV_eq, polyKinds_eq, funcValues_eq, cname_eq, chars, cpath_eq, Node.mods, Node.result,
      SName.ast, SName.name, SPath.path, STKind.ast, STKinds.ast, SNKind.ast, SKind.ast, STaggedKinds.ast, SExpr.ast, SBlock.ast, SStmt.ast,
      SExprs.ast, SExprs0.ast, SType.ast, STypes.ast, STypes0.ast, SImplicit.ast, SImplicits.ast, SImplicits0.ast, STag.ast, STagged.ast,
      SBinds.ast, SExpr.mods, depsAfter, resultAfter]

set_option linter.unusedSimpArgs false in
/-- A node with a value has parts with values. -/
theorem App.parts_val {r vs v c} (h : App r vs v) (hv : v.val = some c) : ∀ x ∈ vs, ∃ c, x.val = some c := by
  cases h
  all_goals
    simp [Node.val, SExpr.ast, SBlock.ast, SStmt.ast, SExprs.ast, SExprs0.ast, SType.ast, STypes.ast, STypes0.ast, SImplicit.ast,
      SImplicits.ast, SImplicits0.ast, STag.ast, STagged.ast, SBinds.ast, Option.map_eq_some_iff, Option.bind_eq_some_iff] at hv ⊢
  all_goals
    try casesm* _ ∧ _, ∃ _, _
    try simp_all

set_option linter.unusedSimpArgs false in
/-- The modules of a node are those of the parts, in order. -/
theorem App.mods {r vs v} (h : App r vs v) (hr : r ≠ .startPath) (hr' : r ≠ .exprModule) : v.mods = (vs.map Node.mods).flatten := by
  cases h
  case startPath => exact absurd rfl hr
  case exprModule => exact absurd rfl hr'
  all_goals
    simp [Node.mods, SExpr.mods, SBlock.mods, SStmt.mods, SExprs.mods, SExprs0.mods, SType.mods, STypes.mods, STypes0.mods, SImplicit.mods,
      SImplicits.mods, SImplicits0.mods, STag.mods, STagged.mods, SBinds.mods]

theorem App.parts_mods {r vs v} (h : App r vs v) (hr : r = .startPath ∨ r = .exprModule) : (vs.map Node.mods).flatten = [] := by
  cases h <;> simp at hr <;> rfl

theorem App.result {r vs v} (h : App r vs v) : r ≠ .startProgram → v.result = none := by
  intro hr
  cases h
  case startProgram => exact absurd rfl hr
  all_goals rfl
