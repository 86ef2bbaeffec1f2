import Verif.Parse.Run
/-
What the parser returns.
-/
namespace Verif.Parse
open Text (Token Str ch)
open Elab (Expr)

/-! ### Determinism -/

theorem Ends.unique {V σ : Type} {sem : Sem V σ} {lim c o o'} (h : Ends sem lim c o) (h' : Ends sem lim c o') : o = o' := by
  obtain ⟨c1, h1, h2⟩ := h
  obtain ⟨c2, h3, h4⟩ := h'
  induction h1 with
  | refl c =>
    cases h3 with
    | refl => rw [h2] at h4; cases h4; rfl
    | head h _ => rw [h2] at h; cases h
  | head h _ ih =>
    cases h3 with
    | refl => rw [h4] at h; cases h
    | head h' h3 => rw [h] at h'; cases h'; exact ih h2 h3

/-- Configurations that the parser does not leave. -/
theorem Steps.unique {V σ : Type} {sem : Sem V σ} {lim c c1 c2} (h1 : Steps sem lim c c1) (h2 : Steps sem lim c c2)
    (e1 : ∀ c', step sem lim c1 ≠ .run c') (e2 : ∀ c', step sem lim c2 ≠ .run c') : c1 = c2 := by
  induction h1 with
  | refl c =>
    cases h2 with
    | refl => rfl
    | head h _ => exact absurd h (e1 _)
  | head h _ ih =>
    cases h2 with
    | refl => exact absurd h (e2 _)
    | head h' h2 => rw [h] at h'; cases h'; exact ih h2 e1

theorem not_ends_of_steps {V σ : Type} {sem : Sem V σ} {lim c c1 o} (h1 : Steps sem lim c c1) (e1 : ∀ c', step sem lim c1 ≠ .run c')
    (h2 : Ends sem lim c o) : step sem lim c1 = .done o := by
  obtain ⟨c2, h2, h3⟩ := h2
  rw [Steps.unique h1 h2 e1 (by intro c' h; rw [h3] at h; cases h)]
  exact h3

/-! ### Following the parser -/

/-- A statement or a program is recognised only before a token that cannot begin a statement. -/
def StmtInv (c : Cfg Node Unit) : Prop :=
  ∀ e S, c.stack = e :: S → e.sym = n_stmt ∨ (∃ s, e.val = .program s) → mem (look c.rest) stmtFirst = false

structure Good (toks : List Tok) (lim : Nat) (cB : Cfg Node Unit) (cC : Cfg Val St) : Prop where
  inv : NInv toks cB
  rel : Rel cB cC
  len : cB.stack.length ≤ lim
  stmt : StmtInv cB

theorem StmtInv.next {toks lim cB cB' cC} (hI : NInv toks cB) (hR : Rel cB cC) (h0 : StmtInv cB) (h : step nodes lim cB = .run cB') :
    StmtInv cB' ∧ cB'.stack.length ≤ lim := by
  unfold step at h
  cases ha : action (top cB.stack) (look cB.rest) with
  | error => rw [ha] at h; cases h
  | accept => rw [ha] at h; cases h
  | shift t =>
    rw [ha] at h
    simp only at h
    cases hr : cB.rest with
    | nil => rw [hr] at h; cases h
    | cons tok rest =>
      rw [hr] at h
      simp only [push] at h
      split at h
      · cases h
        refine ⟨fun e S he hs => ?_, by simpa⟩
        simp only [List.cons.injEq] at he
        obtain ⟨rfl, -⟩ := he
        rcases hs with hs | ⟨s, hs⟩
        · have := tok.kind_lt
          simp only at hs
          rw [hs] at this
          exact absurd this (by decide)
        · cases hs
      · cases h
  | reduce r =>
    obtain ⟨hne, it, hi, hr, hd⟩ := red ha
    obtain ⟨hle, u, w, hs, v, t, h1, h2, h3, hv, ht⟩ := reduce_ok total hI ha
    obtain ⟨u0, hS, -⟩ := id hI
    have hsy := hS.syms _ hi rfl
    rw [hd, hr, List.take_length] at hsy
    obtain ⟨v', happ⟩ := app_of_syms hne ((hR.stack.syms r.rhs.length).trans hsy)
    obtain rfl : v' = v := Option.some.inj (happ.build.symm.trans hv)
    rw [ha] at h
    simp only at h
    rw [if_neg (by omega)] at h
    simp only [nodes, builder, hv, ht, push] at h
    split at h
    · rename_i hlim
      cases h
      refine ⟨fun e S he hs => ?_, by simpa using hlim⟩
      simp only [List.cons.injEq] at he
      obtain ⟨rfl, -⟩ := he
      simp only at hs ⊢
      have hlast : r.rhs.getLast? = some n_stmt → mem (look cB.rest) stmtFirst = false := by
        intro hl
        cases hst : cB.stack with
        | nil => rw [hst] at hsy; simp at hsy; rw [hsy] at hl; cases hl
        | cons e S =>
          refine h0 e S hst (.inl ?_)
          rw [hst] at hsy
          cases hn : r.rhs.length with
          | zero => rw [List.length_eq_zero_iff.mp hn] at hl; cases hl
          | succ n =>
            rw [hn] at hsy
            simp at hsy
            rw [← hsy] at hl
            simpa using hl
      rcases hs with hs | ⟨s, hs⟩
      · have h4 := List.all_eq_true.mp (allStates_iff stmt_ok (action_reduce_mem ha).2) _ (List.mem_range.mpr (look_lt cB.rest))
        rw [ha] at h4
        simp only [hs, Nat.beq_refl, Bool.not_true, Bool.false_or, Bool.or_eq_true, decide_eq_true_eq, Bool.not_eq_true'] at h4
        rcases h4 with h4 | h4
        · exact hlast h4
        · exact h4
      · subst hs
        generalize ((cB.stack.take r.rhs.length).reverse.map fun x => x.val) = vs at happ
        cases happ
        exact hlast rfl
    · cases h

theorem Good.next {toks lim cB cC cB' cC'} (h : Good toks lim cB cC) (hs : step nodes lim cB = .run cB') (hR : Rel cB' cC') :
    Good toks lim cB' cC' := by
  have hn := h.stmt.next h.inv h.rel hs
  refine ⟨?_, hR, hn.2, hn.1⟩
  rcases h.inv.step (lim := lim) total with ⟨c', h1, h2⟩ | h1 | h1 | ⟨h1, -⟩
  · rw [show step (builder Node.tok build) lim cB = .run cB' from hs] at h1
    cases h1
    exact h2
  all_goals
    rw [show step (builder Node.tok build) lim cB = .run cB' from hs] at h1
    cases h1

theorem Good.both {toks lim cB cC} (h : Good toks lim cB cC) : Both lim cB cC := Parse.both h.inv h.rel h.len

/-- Each turn of the parser is a turn of the parser that builds nodes. -/
theorem Good.steps {toks lim cB cC cC'} (hs : Steps sem lim cC cC') : Good toks lim cB cC →
    ∃ cB', Steps nodes lim cB cB' ∧ Good toks lim cB' cC' := by
  induction hs generalizing cB with
  | refl => intro h; exact ⟨cB, .refl _, h⟩
  | head h1 _ ih =>
    intro h
    cases h.both with
    | run a b c =>
      rw [b] at h1
      cases h1
      obtain ⟨cB', h2, h3⟩ := ih (h.next a c)
      exact ⟨cB', .head a h2, h3⟩
    | failed a _ _ => rw [a] at h1; cases h1
    | syntaxError _ a => rw [a] at h1; cases h1
    | accepted _ a => rw [a] at h1; cases h1
    | exhausted _ a _ _ => rw [a] at h1; cases h1

/-- The other way round, as far as no action fails. -/
theorem Good.steps_of_nodes {toks lim cB cC cB'} (hs : Steps nodes lim cB cB') : Good toks lim cB cC →
    (∃ cC', Steps sem lim cC cC' ∧ Good toks lim cB' cC') ∨ ∃ st, Ends sem lim cC (.failed st) ∧ st.result = none := by
  induction hs generalizing cC with
  | refl => intro h; exact .inl ⟨cC, .refl _, h⟩
  | head h1 _ ih =>
    intro h
    cases h.both with
    | run a b c =>
      rw [a] at h1
      cases h1
      rcases ih (h.next a c) with ⟨cC', h2, h3⟩ | ⟨st, h2, h3⟩
      · exact .inl ⟨cC', .head b h2, h3⟩
      · exact .inr ⟨st, .head b h2, h3⟩
    | failed a b _ => exact .inr ⟨cC.st, ⟨cC, .refl _, a⟩, b⟩
    | syntaxError a _ => rw [a] at h1; cases h1
    | accepted a _ => rw [a] at h1; cases h1
    | exhausted a _ _ _ => rw [a] at h1; cases h1

theorem stepV (lim c) : step nodesV lim c = .done .crash ∨ step nodesV lim c = step nodes lim c := by
  unfold step
  cases action (top c.stack) (look c.rest) with
  | error => exact .inr rfl
  | accept => exact .inr rfl
  | shift t => exact .inr rfl
  | reduce r =>
    simp only
    split
    · exact .inl rfl
    · cases hb : build r ((c.stack.take r.rhs.length).reverse.map (·.val)) with
      | none => left; simp only [nodesV, builder, buildV, hb]
      | some v =>
        cases hv : v.val with
        | none => left; simp only [nodesV, builder, buildV, hb, hv, Option.isSome_none, Bool.false_eq_true, if_false]
        | some c => right; simp only [nodesV, nodes, builder, buildV, hb, hv, Option.isSome_some, if_true]

/-- If only nodes with values are built, no action fails. -/
theorem Good.steps_of_nodesV {toks lim cB cC cB'} (hs : Steps nodesV lim cB cB') : Good toks lim cB cC →
    ∃ cC', Steps sem lim cC cC' ∧ Good toks lim cB' cC' := by
  induction hs generalizing cC with
  | refl => intro h; exact ⟨cC, .refl _, h⟩
  | @head c c' _ h1 _ ih =>
    intro h
    have h1' : step nodes lim c = .run c' := by
      rcases stepV lim c with h2 | h2
      · rw [h2] at h1; cases h1
      · rw [← h2]; exact h1
    cases h.both with
    | run a b c =>
      rw [a] at h1'
      cases h1'
      obtain ⟨cC', h2, h3⟩ := ih (h.next a c)
      exact ⟨cC', .head b h2, h3⟩
    | failed _ _ a => rw [a] at h1; cases h1
    | syntaxError a _ => rw [a] at h1'; cases h1'
    | accepted a _ => rw [a] at h1'; cases h1'
    | exhausted a _ _ _ => rw [a] at h1'; cases h1'

theorem Good.init (toks : List Tok) (lim : Nat) : Good toks lim ⟨[], toks, ()⟩ ⟨[], toks, ⟨none, []⟩⟩ :=
  ⟨⟨[], .nil, rfl⟩, ⟨.nil, rfl, rfl, rfl⟩, Nat.zero_le _, fun _ _ h => by cases h⟩

/-- The parser ends, and never reads a value that is not there. -/
theorem yyparse_ends (start : Tok) (toks : List Token) : ∃ o s, Yyparse start toks [] o ∧ o.st = some s := by
  have hg := Good.init (start :: toks.map .lex) maxDepth
  have hend : ∃ o, Ends nodes maxDepth ⟨[], start :: toks.map .lex, ()⟩ o := by
    rcases ends_of_inv maxDepth total _ _ ⟨[], start :: toks.map .lex, ()⟩ rfl rfl hg.inv with h | h | h
    · exact ⟨_, h⟩
    · exact ⟨_, h⟩
    · exact ⟨_, h⟩
  obtain ⟨o, cB', h1, h2⟩ := hend
  rcases hg.steps_of_nodes h1 with ⟨cC', h3, h4⟩ | ⟨st, h3, h4⟩
  · cases h4.both with
    | run a _ _ => rw [a] at h2; cases h2
    | failed a _ _ => exact ⟨_, _, ⟨cC', h3, a⟩, rfl⟩
    | syntaxError _ a => exact ⟨_, _, ⟨cC', h3, a⟩, rfl⟩
    | accepted _ a => exact ⟨_, _, ⟨cC', h3, a⟩, rfl⟩
    | exhausted _ a _ _ => exact ⟨_, _, ⟨cC', h3, a⟩, rfl⟩
  · exact ⟨_, _, h3, rfl⟩

/-! ### Programs can be parsed -/

/-- The parts of a node, derived one after the other. -/
theorem ders_of {b : Rule → List Node → Option Node} : (vs : List Node) → (∀ v ∈ vs, Der Node.tok b v.sym v.toks v v.height) →
    Ders Node.tok b (vs.map Node.sym) (vs.map Node.toks).flatten vs (vs.map Node.height)
  | [], _ => .nil
  | v :: vs, h => .cons (h v (.head _)) (ders_of vs fun x hx => h x (.tail _ hx))

theorem der_of (n : Nat) : (v : Node) → v.size = n → Der Node.tok build v.sym v.toks v v.height := by
  induction n using Nat.strongRecOn with
  | _ n ih =>
    intro v hn
    rcases v.app with ⟨t, rfl⟩ | ⟨r, vs, ha⟩
    · exact .leaf t
    · have := ders_of vs fun x hx => ih _ (by rw [← hn]; exact ha.size x hx) x rfl
      rw [ha.syms] at this
      rw [ha.sym, ha.toks, ha.height]
      exact .node this ha.build

theorem derV_of (n : Nat) : (v : Node) → v.size = n → (∃ c, v.val = some c) → Der Node.tok buildV v.sym v.toks v v.height := by
  induction n using Nat.strongRecOn with
  | _ n ih =>
    intro v hn ⟨c, hc⟩
    rcases v.app with ⟨t, rfl⟩ | ⟨r, vs, ha⟩
    · exact .leaf t
    · have := ders_of vs fun x hx => ih _ (by rw [← hn]; exact ha.size x hx) x rfl (ha.parts_val hc x hx)
      rw [ha.syms] at this
      rw [ha.sym, ha.toks, ha.height]
      exact .node this (by simp [buildV, ha.build, hc])

theorem start_items : (∃ it ∈ items 0, it.rule = .startProgram ∧ it.dot = 0 ∧
      (List.range numTerminals).all (fun a => mem a stmtFirst || mem a it.look) = true) ∧
    (∃ it ∈ items 0, it.rule = .startPath ∧ it.dot = 0 ∧ (List.range numTerminals).all (fun a => mem a it.look) = true) := by
  have h : (items 0).any (fun it => decide (it.rule = .startProgram) && Nat.beq it.dot 0 &&
        (List.range numTerminals).all (fun a => mem a stmtFirst || mem a it.look)) = true ∧
      (items 0).any (fun it => decide (it.rule = .startPath) && Nat.beq it.dot 0 &&
        (List.range numTerminals).all (fun a => mem a it.look)) = true := by
    constructor <;> decide +kernel
  obtain ⟨h1, h2⟩ := h
  obtain ⟨i1, m1, g1⟩ := List.any_eq_true.mp h1
  obtain ⟨i2, m2, g2⟩ := List.any_eq_true.mp h2
  simp only [Bool.and_eq_true, decide_eq_true_eq] at g1 g2
  exact ⟨⟨i1, m1, g1.1.1, Nat.eq_of_beq_eq_true g1.1.2, g1.2⟩, ⟨i2, m2, g2.1.1, Nat.eq_of_beq_eq_true g2.1.2, g2.2⟩⟩

/-- The run of the parser for what the start symbol derives. -/
theorem run_start {b : Rule → List Node → Option Node} {v : Node} {r} (hr : r = .startProgram ∨ r = .startPath) {vs} (ha : App r vs v)
    (hb : b r vs = some v) (hd : ∀ v ∈ vs, Der Node.tok b v.sym v.toks v v.height) (lim : Nat) (rest : List Tok)
    (hl : r = .startPath ∨ mem (look rest) stmtFirst = false) :
    (v.height ≤ lim → Steps (builder Node.tok b) lim ⟨[], v.toks ++ rest, ()⟩ ⟨[⟨acceptState, n_start, v⟩], rest, ()⟩) ∧
    (lim < v.height → Ends (builder Node.tok b) lim ⟨[], v.toks ++ rest, ()⟩ (.exhausted ())) := by
  have hds := ders_of vs hd
  rw [ha.syms, ← ha.toks] at hds
  have hit : ∃ it ∈ items 0, it.rule = r ∧ it.dot = 0 ∧ mem (look rest) it.look = true := by
    rcases hr with rfl | rfl
    · obtain ⟨it, h1, h2, h3, h4⟩ := start_items.1
      refine ⟨it, h1, h2, h3, ?_⟩
      have := List.all_eq_true.mp h4 _ (List.mem_range.mpr (look_lt rest))
      rcases hl with hl | hl
      · cases hl
      · simpa [hl] using this
    · obtain ⟨it, h1, h2, h3, h4⟩ := start_items.2
      exact ⟨it, h1, h2, h3, List.all_eq_true.mp h4 _ (List.mem_range.mpr (look_lt rest))⟩
  obtain ⟨it, h1, h2, h3, h4⟩ := hit
  have hacc : it.rule ≠ .accept := by rw [h2]; rcases hr with rfl | rfl <;> decide
  have hlhs : r.lhs = n_start := by rcases hr with rfl | rfl <;> rfl
  have hg : goto (top ([] : List (Entry Node))) r.lhs = some acceptState := by rw [hlhs]; decide +kernel
  obtain ⟨g1, g2⟩ := hds.run lim [] rest it h1 (by rw [h2, h3]; rfl) hacc h4 (Nat.zero_le _)
  simp only [List.length_nil, Nat.zero_add] at g1 g2
  have hh : v.height = depthSeq (vs.map Node.height) := by
    rw [ha.height]
    rcases hr with rfl | rfl
    · cases ha; simp [depth, depthSeq, Node.height]
    · cases ha; simp [depth, depthSeq, Node.height]
  have hpos : 1 ≤ v.height := by rw [ha.height]; exact Nat.le_max_left ..
  rw [← hh] at g1 g2
  refine ⟨fun hle => ?_, g2⟩
  obtain ⟨S', k1, k2, k3, it', k4, k5, k6, k7⟩ := g1 hle
  have hred : action (top (S' ++ [])) (look rest) = .reduce r := by
    have hr' : it'.rule = r := by rw [k5, h2]
    rw [← hr']
    exact item_reduce k4 (by rw [k6, k5]) k7 (look_lt rest)
  refine k1.trans (.head (c' := ⟨[⟨acceptState, n_start, v⟩], rest, ()⟩) ?_ (.refl _))
  rw [step_reduce k2 hred (by rw [k3]; exact hb) hg, push, if_pos (by simp; omega), hlhs]

end Verif.Parse
