import Verif.Parse.Sim
/-
The parser with the actions of parse.y, followed by the parser that builds nodes.
-/
namespace Verif.Parse
open Text (Token Str ch)
open Elab (Expr)

/-! ### The state after the start symbol -/

theorem start_ok : allStates (fun s => (transitions s).all fun (x, t) => !Nat.beq x n_start || (Nat.beq s 0 && Nat.beq t acceptState)) = true := by
  decide +kernel

theorem accept_end_ok : (List.range numTerminals).all (fun a => match action acceptState a with
    | .accept => true | .error => true | _ => false) = true := by
  decide +kernel

theorem trans_start {s t} (h : Trans s n_start t) : s = 0 ∧ t = acceptState := by
  have hm := h.mem
  have h1 := List.all_eq_true.mp (allStates_iff start_ok hm.2) _ hm.1
  simp at h1
  exact h1

theorem accept_end {V σ : Type} {sem : Sem V σ} {lim} {c : Cfg V σ} (h : top c.stack = acceptState) {c'} : step sem lim c ≠ .run c' := by
  have h1 := List.all_eq_true.mp accept_end_ok _ (List.mem_range.mpr (look_lt c.rest))
  unfold step
  rw [h]
  intro h2
  cases ha : action acceptState (look c.rest) with
  | accept => rw [ha] at h2; cases h2
  | error => rw [ha] at h2; cases h2
  | shift t => rw [ha] at h1; cases h1
  | reduce r => rw [ha] at h1; cases h1

/-! ### Corresponding configurations -/

/-- Entries of the two parsers. -/
structure ERel (b : Entry Node) (c : Entry Val) : Prop where
  state : c.state = b.state
  sym : c.sym = b.sym
  node : b.val.sym = b.sym
  val : b.val.val = some c.val

inductive SRel : List (Entry Node) → List (Entry Val) → Prop where
  | nil : SRel [] []
  | cons {b c bs cs} : ERel b c → SRel bs cs → SRel (b :: bs) (c :: cs)

theorem SRel.length {B C} (h : SRel B C) : C.length = B.length := by
  induction h with
  | nil => rfl
  | cons _ _ ih => simp [ih]

theorem SRel.drop {B C} (h : SRel B C) : ∀ n, SRel (B.drop n) (C.drop n) := by
  induction h with
  | nil => intro n; simpa using SRel.nil
  | cons h1 h2 ih =>
    intro n
    cases n with
    | zero => exact .cons h1 h2
    | succ n => simpa using ih n

theorem SRel.top {B C} (h : SRel B C) : top C = top B := by
  cases h with
  | nil => rfl
  | cons h _ => exact h.state

theorem Vals.snoc {vs cs v c} (h : Vals vs cs) (hv : v.val = some c) : Vals (vs ++ [v]) (cs ++ [c]) := by
  induction h with
  | nil => exact .cons hv .nil
  | cons h1 _ ih => exact .cons h1 ih

theorem SRel.vals {B C} (h : SRel B C) : ∀ n, Vals ((B.take n).reverse.map (·.val)) ((C.take n).reverse.map (·.val)) := by
  induction h with
  | nil => intro n; simpa using Vals.nil
  | cons h1 h2 ih =>
    intro n
    cases n with
    | zero => simpa using Vals.nil
    | succ n => simpa using (ih n).snoc h1.val

theorem SRel.syms {B C} (h : SRel B C) : ∀ n, ((B.take n).reverse.map (·.val)).map Node.sym = (B.take n).reverse.map (·.sym) := by
  induction h with
  | nil => intro n; simp
  | cons h1 h2 ih =>
    intro n
    cases n with
    | zero => simp
    | succ n => have := ih n; simp at this; simpa [h1.node] using this

/-- The modules on the stack. -/
def modsOf (B : List (Entry Node)) : List Text.Path := (B.reverse.map fun e => e.val.mods).flatten

theorem modsOf_cons (e : Entry Node) (B) : modsOf (e :: B) = modsOf B ++ e.val.mods := by simp [modsOf]

theorem modsOf_split (B : List (Entry Node)) (n : Nat) :
    modsOf B = modsOf (B.drop n) ++ (((B.take n).reverse.map (·.val)).map Node.mods).flatten := by
  conv => lhs; rw [← List.take_append_drop n B, modsOf, List.reverse_append, List.map_append, List.flatten_append]
  rw [modsOf, List.map_map]
  rfl

/-- The program on top of the stack. -/
def resultOf : List (Entry Node) → Option Expr
  | [] => none
  | e :: _ => e.val.result

structure Rel (cB : Cfg Node Unit) (cC : Cfg Val St) : Prop where
  stack : SRel cB.stack cC.stack
  rest : cC.rest = cB.rest
  deps : cC.st.deps = (modsOf cB.stack).foldl addDep []
  result : cC.st.result = resultOf cB.stack

/-- The parser that builds nodes. -/
abbrev nodes : Sem Node Unit := builder Node.tok build

/-- Nodes with values only. -/
def buildV (r : Rule) (vs : List Node) : Option Node :=
  match build r vs with
  | some v => if v.val.isSome then some v else none
  | none => none

abbrev nodesV : Sem Node Unit := builder Node.tok buildV

abbrev NInv := Inv Node.tok build

theorem stackOk_start {e : Entry Node} {S u} (h : StackOk Node.tok build (e :: S) u) (he : e.sym = n_start) :
    S = [] ∧ e.state = acceptState := by
  cases h with
  | cons hS htr hd =>
    simp only at he
    subst he
    obtain ⟨h1, h2⟩ := trans_start htr
    refine ⟨?_, h2⟩
    cases hS with
    | nil => rfl
    | cons _ htr' _ => exact absurd h1 (trans_ne_zero htr')

theorem goto_start {S u t} (h : StackOk Node.tok build S u) (hg : goto (top S) n_start = some t) : S = [] := by
  have := (trans_start (.inr ⟨by decide, hg⟩)).1
  cases h with
  | nil => rfl
  | cons _ htr' _ => exact absurd this (trans_ne_zero htr')

/-- A parser that goes on has no program on its stack. -/
theorem resultOf_none {B C u} (hS : StackOk Node.tok build B u) (hR : SRel B C) (ht : top B ≠ acceptState) : resultOf B = none := by
  cases hR with
  | nil => rfl
  | @cons e c B C h1 h2 =>
    simp only [resultOf]
    cases hv : e.val with
    | program s =>
      have := h1.node
      rw [hv] at this
      exact absurd (stackOk_start hS this.symm).2 ht
    | _ => rfl

theorem not_accept {s a} (ha : (∃ t, action s a = .shift t) ∨ ∃ r, action s a = .reduce r) (h : a < numTerminals) : s ≠ acceptState := by
  rintro rfl
  have h3 := List.all_eq_true.mp accept_end_ok _ (List.mem_range.mpr h)
  rcases ha with ⟨t, ha⟩ | ⟨r, ha⟩
  · rw [ha] at h3; cases h3
  · rw [ha] at h3; cases h3

theorem App.mods_start {vs v} (h : App .startPath vs v) : v.mods.length = 1 := by
  cases h; rfl

/-- What the next turn of the parser does. -/
inductive Both (lim : Nat) (cB : Cfg Node Unit) (cC : Cfg Val St) : Prop where
  | run {cB' cC'} : step nodes lim cB = .run cB' → step sem lim cC = .run cC' → Rel cB' cC' → Both lim cB cC
  | failed : step sem lim cC = .done (.failed cC.st) → cC.st.result = none → step nodesV lim cB = .done .crash → Both lim cB cC
  | syntaxError : step nodes lim cB = .done (.syntaxError ()) → step sem lim cC = .done (.syntaxError cC.st) → Both lim cB cC
  | accepted : step nodes lim cB = .done (.accepted ()) → step sem lim cC = .done (.accepted cC.st) → Both lim cB cC
  | exhausted {s'} : step nodes lim cB = .done (.exhausted ()) → step sem lim cC = .done (.exhausted s') → s'.result = none → s'.deps = cC.st.deps → Both lim cB cC

theorem both {lim toks cB cC} (hI : NInv toks cB) (hR : Rel cB cC) (hlen : cB.stack.length ≤ lim) : Both lim cB cC := by
  have htop := hR.stack.top
  have hrest := hR.rest
  have hl := hR.stack.length
  cases ha : action (top cB.stack) (look cB.rest) with
  | error =>
    refine .syntaxError ?_ ?_
    · unfold step; rw [ha]
    · unfold step; rw [htop, hrest, ha]
  | accept =>
    refine .accepted ?_ ?_
    · unfold step; rw [ha]
    · unfold step; rw [htop, hrest, ha]
  | shift t =>
    cases hr : cB.rest with
    | nil => rw [hr] at ha; exact absurd ha fun h => no_shift_eof h
    | cons tok rest =>
      have h1 : step nodes lim cB = push lim ⟨t, tok.kind, .tok tok⟩ cB.stack rest () := by
        unfold step; rw [ha]; simp only; rw [hr]; rfl
      have h2 : step sem lim cC = push lim ⟨t, tok.kind, tokVal tok⟩ cC.stack rest cC.st := by
        unfold step; rw [htop, hrest, ha]; simp only; rw [hr]; rfl
      obtain ⟨u, hS, -⟩ := id hI
      have hnone : resultOf cB.stack = none := resultOf_none hS hR.stack (not_accept (.inl ⟨t, ha⟩) (look_lt _))
      by_cases hle : cB.stack.length + 1 ≤ lim
      · refine .run (cB' := ⟨⟨t, tok.kind, .tok tok⟩ :: cB.stack, rest, ()⟩) (cC' := ⟨⟨t, tok.kind, tokVal tok⟩ :: cC.stack, rest, cC.st⟩)
          (by rw [h1, push, if_pos hle]) (by rw [h2, push, if_pos (by omega)]) ?_
        exact ⟨.cons ⟨rfl, rfl, rfl, rfl⟩ hR.stack, rfl, by rw [hR.deps, modsOf_cons]; simp [Node.mods], by rw [hR.result, hnone]; rfl⟩
      · exact .exhausted (by rw [h1, push, if_neg hle]) (by rw [h2, push, if_neg (by omega)]) (by rw [hR.result, hnone]) rfl
  | reduce r =>
    obtain ⟨hne, it, hi, hr, hd⟩ := red ha
    obtain ⟨hle, u, w, hs, v, t, h1, h2, h3, hv, ht⟩ := reduce_ok total hI ha
    obtain ⟨u0, hS, -⟩ := id hI
    have hsy := hS.syms _ hi rfl
    rw [hd, hr, List.take_length] at hsy
    obtain ⟨v', happ⟩ := app_of_syms hne ((hR.stack.syms r.rhs.length).trans hsy)
    obtain rfl : v' = v := Option.some.inj (happ.build.symm.trans hv)
    have hB : step nodes lim cB = push lim ⟨t, r.lhs, v'⟩ (cB.stack.drop r.rhs.length) cB.rest () := by
      unfold step
      rw [ha]
      simp only
      rw [if_neg (by omega)]
      simp only [nodes, builder, hv, ht]
    have hnone : resultOf cB.stack = none := resultOf_none hS hR.stack (not_accept (.inr ⟨r, ha⟩) (look_lt _))
    rcases happ.act (hR.stack.vals r.rhs.length) cC.st with ⟨c, s', hact, hval, hdeps, hresult⟩ | ⟨hact, hval⟩
    · have hC : step sem lim cC = push lim ⟨t, r.lhs, c⟩ (cC.stack.drop r.rhs.length) cB.rest s' := by
        unfold step
        rw [htop, hrest, ha]
        simp only
        rw [if_neg (by omega)]
        have hd := (hR.stack.drop r.rhs.length).top
        simp only [sem, hact, hd, ht]
      by_cases hlim : (cB.stack.drop r.rhs.length).length + 1 ≤ lim
      · refine .run (cB' := ⟨⟨t, r.lhs, v'⟩ :: cB.stack.drop r.rhs.length, cB.rest, ()⟩)
          (cC' := ⟨⟨t, r.lhs, c⟩ :: cC.stack.drop r.rhs.length, cB.rest, s'⟩)
          (by rw [hB, push, if_pos hlim]) (by rw [hC, push, if_pos (by rw [(hR.stack.drop _).length]; exact hlim)]) ?_
        refine ⟨.cons ⟨rfl, rfl, happ.sym, hval⟩ (hR.stack.drop _), rfl, ?_, ?_⟩
        · show s'.deps = _
          rw [hdeps, modsOf_cons, List.foldl_append, hR.deps, modsOf_split cB.stack r.rhs.length]
          by_cases hsp : r = .startPath
          · have hm := happ.parts_mods (.inl hsp)
            have : cB.stack.drop r.rhs.length = [] := goto_start h1 (by rw [hsp] at ht ⊢; exact ht)
            rw [hm, this]
            subst hsp
            obtain ⟨p, hp⟩ := List.length_eq_one_iff.mp happ.mods_start
            simp [depsAfter, modsOf, hp, addDep]
          · by_cases hem : r = .exprModule
            · have hm := happ.parts_mods (.inr hem)
              rw [hm]
              subst hem
              simp [depsAfter]
            · rw [← happ.mods hsp hem, List.foldl_append]
              have : depsAfter r v' = id := by
                unfold depsAfter
                split
                · exact absurd rfl hsp
                · exact absurd rfl hem
                · rfl
              rw [this]; rfl
        · show s'.result = v'.result
          rw [hresult, hR.result, hnone]
          unfold resultAfter
          split
          · rfl
          · rename_i h
            exact (happ.result fun e => h e).symm
      · refine .exhausted (s' := s') (by rw [hB, push, if_neg hlim]) (by rw [hC, push, if_neg (by rw [(hR.stack.drop _).length]; exact hlim)]) ?_ ?_
        · have hnil : r.rhs.length = 0 := by simp at hlim; omega
          rw [hresult, hR.result, hnone]
          unfold resultAfter
          split
          · cases hnil
          · rfl
        · have hnil : r.rhs.length = 0 := by simp at hlim; omega
          rw [hdeps]
          unfold depsAfter
          split
          · cases hnil
          · cases hnil
          · rfl
    · refine .failed ?_ (by rw [hR.result, hnone]) ?_
      · unfold step
        rw [htop, hrest, ha]
        simp only
        rw [if_neg (by omega)]
        simp only [sem, hact]
      · unfold step
        rw [ha]
        simp only
        rw [if_neg (by omega)]
        simp only [nodesV, builder, buildV, hv, hval]
        rfl

end Verif.Parse
