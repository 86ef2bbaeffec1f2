import Verif.Parse.Thm
/-
Theorems: C69 (module paths), and C67 for files.
-/
namespace Verif.Parse
open Text (Token Str ch tokens initLex)
open Text.Spec (Lexes Lexeme Blank)
open Elab (Expr)

/-! ### C69 -/

/-- The states of the parser for module paths. -/
def pathStates : List Nat := [0, 1, 3, 19, 25, 44, 45, 91, 92, 124]

theorem pathStates_ok : pathStates.all (fun s => (transitions s).all fun (x, t) => Nat.beq x t_parseProgram ||
    (pathStates.contains t && (Nat.blt x numTerminals || Nat.beq x n_path || Nat.beq x n_module_path || Nat.beq x n_start))) = true := by
  decide +kernel

/-- Only module paths are on the stack. -/
theorem path_stack {S u} (h : StackOk Node.tok build S u) (hu : ∀ w, u ≠ .program :: w) :
    top S ∈ pathStates ∧ ∀ e ∈ S, e.sym < numTerminals ∨ e.sym = n_path ∨ e.sym = n_module_path ∨ e.sym = n_start := by
  induction h with
  | nil => exact ⟨by decide, by simp⟩
  | @cons S u t x v w h hS htr hd ih =>
    have hu' : ∀ w, u ≠ .program :: w := by
      rintro w' rfl
      exact hu _ rfl
    obtain ⟨h1, h2⟩ := ih hu'
    have h3 := List.all_eq_true.mp (List.all_eq_true.mp pathStates_ok _ h1) _ htr.mem.1
    simp only [Bool.or_eq_true, Bool.and_eq_true, List.contains_iff_mem] at h3
    rcases h3 with h3 | ⟨h3, h4⟩
    · exfalso
      have hx := Nat.eq_of_beq_eq_true h3
      subst hx
      have hsy := (der_node (by decide) hd).1
      have := inv_parseProgram hsy
      subst this
      have htk := (der_node (by decide) hd).2.1
      simp only [Node.toks] at htk
      subst htk
      have : u = [] := by
        have h0 : Trans (top S) t_parseProgram t := htr
        have key : allStates (fun s => (transitions s).all fun (x, _) => !Nat.beq x t_parseProgram || Nat.beq s 0) = true := by decide +kernel
        have h5 := List.all_eq_true.mp (allStates_iff key h0.mem.2) _ h0.mem.1
        simp only [Nat.beq_refl, Bool.not_true, Bool.false_or] at h5
        have h6 := Nat.eq_of_beq_eq_true h5
        cases hS with
        | nil => rfl
        | cons _ htr' _ => exact absurd h6 (trans_ne_zero htr')
      subst this
      exact hu [] rfl
    · refine ⟨h3, fun e he => ?_⟩
      rcases List.mem_cons.mp he with rfl | he
      · simp only [Nat.blt_eq] at h4
        rcases h4 with ((h4 | h4) | h4) | h4
        · exact .inl h4
        · exact .inr (.inl (Nat.eq_of_beq_eq_true h4))
        · exact .inr (.inr (.inl (Nat.eq_of_beq_eq_true h4)))
        · exact .inr (.inr (.inr (Nat.eq_of_beq_eq_true h4)))
      · exact h2 e he

theorem height_path (p : SPath) : p.height ≤ 5 := by
  have h : ∀ p : SPath, p.innerHeight ≤ 3 := by
    intro p
    induction p with
    | word w => simp [SPath.innerHeight]
    | slash p w ih => simp [SPath.innerHeight, depth, depthSeq]; omega
  have := h p
  simp [SPath.height, depth, depthSeq]; omega

theorem run_path {b : Rule → List Node → Option Node} (hb : ∀ p, b .startPath [.tok .modulePath, .modulePath p] = some (.start p)) {p : SPath}
    (hd : Der Node.tok b n_module_path (Node.modulePath p).toks (.modulePath p) p.height) (rest : List Token) :
    Steps (builder Node.tok b) maxDepth ⟨[], .modulePath :: (p.toks ++ rest).map .lex, ()⟩
      ⟨[⟨acceptState, n_start, .start p⟩], rest.map .lex, ()⟩ := by
  have hv : ∀ v ∈ [Node.tok .modulePath, .modulePath p], Der Node.tok b v.sym v.toks v v.height := by
    intro v hv
    simp only [List.mem_cons, List.not_mem_nil, or_false] at hv
    rcases hv with rfl | rfl
    · exact Der.leaf Tok.modulePath
    · exact hd
  have := (run_start (v := .start p) (.inr rfl) (.startPath p) (hb p) hv maxDepth (rest.map .lex) (.inl rfl)).1
    (by have := height_path p; simp [Node.height, depth, depthSeq, maxDepth]; omega)
  simpa [Node.toks] using this

/-- When a module path has been recognised. -/
theorem done_path {toks : List Token} {lim cB cC} (h : Good (.modulePath :: toks.map .lex) lim cB cC) :
    cC.st.deps = [] ∨ ∃ p : SPath, cB.stack = [⟨acceptState, n_start, .start p⟩] ∧ cC.st.deps = [p.path] ∧
      ∃ rest : List Token, cB.rest = rest.map .lex ∧ toks = p.toks ++ rest := by
  by_cases hst : ∃ e S, cB.stack = e :: S ∧ e.sym = n_start
  · obtain ⟨e, S, hst, hsym⟩ := hst
    obtain ⟨u, hS, hu⟩ := h.inv
    rw [hst] at hS
    obtain ⟨rfl, hacc⟩ := stackOk_start hS hsym
    right
    cases hS with
    | @cons _ _ _ _ v _ _ hS' _ hd =>
      cases hS' with
      | nil =>
        simp only at hsym hacc
        subst hsym hacc
        obtain ⟨m1, m2, -⟩ := der_node (by decide) hd
        cases v with
        | program s =>
          simp only [Node.toks] at m2
          rw [← m2] at hu
          simp at hu
        | start p =>
          refine ⟨p, hst, by rw [h.rel.deps, hst]; simp [modsOf, Node.mods, addDep], ?_⟩
          simp only [Node.toks] at m2
          rw [← m2] at hu
          simp only [List.nil_append, List.cons_append, List.cons.injEq, true_and] at hu
          obtain ⟨l1, l2, h1, h2, h3⟩ := List.map_eq_append_iff.mp hu.symm
          have : l1 = p.toks := (List.map_inj_right (fun _ _ h => by cases h; rfl)).mp h2
          exact ⟨l2, h3.symm, by rw [h1, this]⟩
        | tok t => exact (tok_nonterminal m1 (by decide)).elim
        | _ => simp only [Node.sym] at m1; exact absurd m1 (by decide)
  · left
    obtain ⟨u, hS, hu⟩ := h.inv
    have hsyms := (path_stack hS (by rintro w rfl; simp at hu)).2
    have hnone : ∀ {S C u}, SRel S C → StackOk Node.tok build S u → (∀ e ∈ S, e.sym < numTerminals ∨ e.sym = n_path ∨ e.sym = n_module_path ∨ e.sym = n_start) →
        (¬ ∃ e S', S = e :: S' ∧ e.sym = n_start) → modsOf S = [] := by
      intro S C u hR
      induction hR generalizing u with
      | nil => intro _ _ _; rfl
      | @cons b c bs cs h1 h2 ih =>
        intro hS hsy hno
        rw [modsOf_cons]
        have hb : b.sym ≠ n_start := fun e => hno ⟨b, bs, rfl, e⟩
        have hv : b.val.mods = [] := by
          have hn := h1.node
          rcases hsy b (.head _) with h | h | h | h
          · rw [← hn] at h
            cases hv : b.val with
            | tok t => rfl
            | _ => rw [hv] at h; simp only [Node.sym] at h; exact absurd h (by decide)
          · obtain ⟨x, hx⟩ := inv_path (hn.trans h); rw [hx]; rfl
          · obtain ⟨x, hx⟩ := inv_modulePath (hn.trans h); rw [hx]; rfl
          · exact absurd h hb
        rw [hv, List.append_nil]
        cases hS with
        | @cons _ u' _ _ _ _ _ hS' htr hd =>
          refine ih hS' (fun e he => hsy e (.tail _ he)) ?_
          rintro ⟨e, S', rfl, he⟩
          obtain ⟨rfl, hacc⟩ := stackOk_start hS' he
          have hm := htr.mem
          simp only [top, hacc] at hm
          have : transitions acceptState = [] := by decide +kernel
          rw [this] at hm
          exact absurd hm.1 (by simp)
    rw [h.rel.deps, hnone h.rel.stack hS hsyms hst]
    rfl

/-- How a run of the parser for a module path ends. -/
theorem path_ends {toks o} (h : Yyparse .modulePath toks [] o) :
    (∃ st, o.st = some st ∧ st.deps = [] ∧ o.ok = false) ∨
    ∃ (p : SPath) (rest : List Token) (st : St), toks = p.toks ++ rest ∧ o.st = some st ∧ st.deps = [p.path] ∧ (o.ok = true ↔ AtEnd rest) := by
  obtain ⟨cC, h1, h2⟩ := h
  obtain ⟨cB, g1, g2⟩ := (Good.init (.modulePath :: toks.map .lex) maxDepth).steps h1
  rcases done_path g2 with hd | ⟨p, hst, hd, rest, hrest, rfl⟩
  · left
    cases g2.both with
    | run _ a _ => rw [a] at h2; cases h2
    | failed a _ _ => rw [a] at h2; cases h2; exact ⟨_, rfl, hd, rfl⟩
    | syntaxError _ a => rw [a] at h2; cases h2; exact ⟨_, rfl, hd, rfl⟩
    | exhausted _ a _ b => rw [a] at h2; cases h2; exact ⟨_, rfl, by rw [b, hd], rfl⟩
    | accepted a b =>
      exfalso
      rcases g2.inv.step (lim := maxDepth) total with ⟨c', k, _⟩ | k | k | ⟨k, k1, t, v, h, u, k2, k3, k4⟩
      · rw [show step (builder Node.tok build) maxDepth cB = .done (.accepted ()) from a] at k; cases k
      · rw [show step (builder Node.tok build) maxDepth cB = .done (.accepted ()) from a] at k; cases k
      · rw [show step (builder Node.tok build) maxDepth cB = .done (.accepted ()) from a] at k; cases k
      · obtain ⟨m1, m2, m3⟩ := der_node (by decide) k3
        have hr := g2.rel.deps
        rw [hd, k2] at hr
        cases v with
        | program s =>
          simp only [Node.toks] at m2
          rw [← m2] at k4
          simp at k4
        | start p => simp [modsOf, Node.mods, addDep] at hr
        | tok t => exact (tok_nonterminal m1 (by decide)).elim
        | _ => simp only [Node.sym] at m1; exact absurd m1 (by decide)
  · right
    obtain ⟨b1, b2, b3⟩ := cB
    simp only at hst hrest
    subst hst hrest
    have hstep : step nodes maxDepth ⟨[⟨acceptState, n_start, .start p⟩], rest.map .lex, ()⟩ = _ := accept_step
    refine ⟨p, rest, cC.st, rfl, ?_⟩
    cases g2.both with
    | run a _ _ => exact absurd a (accepting _)
    | failed _ _ a =>
      have : step nodesV maxDepth ⟨[⟨acceptState, n_start, .start p⟩], rest.map .lex, ()⟩ = _ := accept_step
      rw [this] at a
      split at a <;> cases a
    | exhausted a _ _ _ => rw [hstep] at a; split at a <;> cases a
    | syntaxError a b =>
      rw [b] at h2
      cases h2
      refine ⟨rfl, hd, ?_⟩
      rw [atEnd_iff]
      rw [hstep] at a
      split at a
      · cases a
      · rename_i hne; simp [Out.ok, hne]
    | accepted a b =>
      rw [b] at h2
      cases h2
      refine ⟨rfl, hd, ?_⟩
      rw [atEnd_iff]
      rw [hstep] at a
      split at a
      · rename_i hne; simp [Out.ok, hne]
      · cases a

/-- The outcome for a module path. -/
theorem parse_path (p : SPath) (rest : List Token) : ∃ ok, FbleParseModulePath (p.toks ++ rest) (some p.path) ok ∧ (ok = true ↔ AtEnd rest) := by
  have hg := Good.init (.modulePath :: (p.toks ++ rest).map .lex) maxDepth
  have hder : Der Node.tok buildV n_module_path (Node.modulePath p).toks (.modulePath p) p.height := derV_of _ (.modulePath p) rfl ⟨_, rfl⟩
  obtain ⟨cC, h1, h2⟩ := hg.steps_of_nodesV (run_path (fun p => rfl) hder rest)
  have hdep : cC.st.deps = [p.path] := by rw [h2.rel.deps]; simp [modsOf, Node.mods, addDep]
  have hstep : step nodes maxDepth ⟨[⟨acceptState, n_start, .start p⟩], rest.map .lex, ()⟩ = _ := accept_step
  cases h2.both with
  | run a _ _ => exact absurd a (accepting _)
  | failed _ _ a =>
    have : step nodesV maxDepth ⟨[⟨acceptState, n_start, .start p⟩], rest.map .lex, ()⟩ = _ := accept_step
    rw [this] at a
    split at a <;> cases a
  | exhausted a _ _ _ => rw [hstep] at a; split at a <;> cases a
  | syntaxError a b =>
    refine ⟨false, ⟨_, cC.st, ⟨cC, h1, b⟩, rfl, by simp [hdep], by simp [hdep], rfl⟩, ?_⟩
    rw [atEnd_iff]
    rw [hstep] at a
    split at a
    · cases a
    · rename_i hne; simp [hne]
  | accepted a b =>
    refine ⟨true, ⟨_, cC.st, ⟨cC, h1, b⟩, rfl, by simp [hdep], by simp [hdep], rfl⟩, ?_⟩
    rw [atEnd_iff]
    rw [hstep] at a
    split at a
    · rename_i hne; simp [hne]
    · cases a

/-- C69. Parsing a module path ends, with one outcome; the assertion that there is at most one path holds. -/
theorem C69_total (toks : List Token) :
    (∃ result ok, FbleParseModulePath toks result ok) ∧
    ∀ r o r' o', FbleParseModulePath toks r o → FbleParseModulePath toks r' o' → r = r' ∧ o = o' := by
  constructor
  · obtain ⟨o, s, h1, h2⟩ := yyparse_ends .modulePath toks
    rcases path_ends h1 with ⟨st, k1, k2, k3⟩ | ⟨p, rest, st, rfl, k1, k2, k3⟩
    · exact ⟨none, _, o, st, h1, k1, by simp [k2], by simp [k2], rfl⟩
    · exact ⟨some p.path, _, o, st, h1, k1, by simp [k2], by simp [k2], rfl⟩
  · rintro r o r' o' ⟨o1, s1, h1, h2, -, h4, h5⟩ ⟨o2, s2, g1, g2, -, g4, g5⟩
    have := Ends.unique h1 g1
    subst this
    rw [h2] at g2
    cases g2
    exact ⟨h4 ▸ g4, h5 ▸ g5⟩

/-- C69. A module path is returned exactly if the tokens begin with one. -/
theorem C69_path (toks : List Token) (p : Text.Path) :
    (∃ ok, FbleParseModulePath toks (some p) ok) ↔ ∃ (sp : SPath) (rest : List Token), toks = sp.toks ++ rest ∧ sp.path = p := by
  constructor
  · rintro ⟨ok, o, s, h1, h2, -, h4, -⟩
    rcases path_ends h1 with ⟨st, k1, k2, -⟩ | ⟨sp, rest, st, rfl, k1, k2, -⟩
    · rw [h2] at k1; cases k1; rw [k2] at h4; cases h4
    · rw [h2] at k1; cases k1; rw [k2] at h4; exact ⟨sp, rest, rfl, by simpa using h4⟩
  · rintro ⟨sp, rest, rfl, rfl⟩
    obtain ⟨ok, h, -⟩ := parse_path sp rest
    exact ⟨ok, h⟩

/-- C69. No error is reported exactly if the tokens are a module path and nothing else. -/
theorem C69_no_error (toks : List Token) (r : Option Text.Path) :
    FbleParseModulePath toks r true ↔ ∃ (sp : SPath) (rest : List Token), toks = sp.toks ++ rest ∧ AtEnd rest ∧ r = some sp.path := by
  constructor
  · rintro ⟨o, s, h1, h2, -, h4, h5⟩
    rcases path_ends h1 with ⟨st, k1, -, k3⟩ | ⟨sp, rest, st, rfl, k1, k2, k3⟩
    · rw [h5] at k3; cases k3
    · rw [h2] at k1; cases k1; rw [k2] at h4; exact ⟨sp, rest, rfl, k3.mp h5, h4.symm⟩
  · rintro ⟨sp, rest, rfl, he, rfl⟩
    obtain ⟨ok, h, hok⟩ := parse_path sp rest
    rw [hok.mpr he] at h
    exact h

end Verif.Parse
