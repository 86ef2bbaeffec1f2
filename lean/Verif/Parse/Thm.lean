import Verif.Parse.Final
import Verif.Text.Thm
/-
Theorems: C67 (the parser accepts the programs of the grammar), C68 (dependencies), C69 (module paths).
-/
namespace Verif.Parse
open Text (Token Str ch)
open Elab (Expr)

/-! ### Specification -/

/-- The tokens that a statement can begin with. -/
def Begins : Token → Prop
  | .word _ => True
  | .punct b => b ∈ ['@', '/', '*', '+', '%', '{', '(', '<'].map ch
  | .end_ => False

instance (t : Token) : Decidable (Begins t) := match t with
  | .word _ => inferInstanceAs (Decidable True)
  | .punct _ => inferInstanceAs (Decidable (_ ∈ _))
  | .end_ => inferInstanceAs (Decidable False)

/-- `toks` is the program `s`, and what follows cannot be more of it. -/
def Parses (toks : List Token) (s : SStmt) (rest : List Token) : Prop :=
  toks = s.toks ++ rest ∧ ∀ t ∈ rest.head?, ¬ Begins t

/-- What follows is the end of the input. -/
def AtEnd (rest : List Token) : Prop := ∀ t ∈ rest.head?, t = .end_

/-! ### Lemmas -/

theorem kind_eof {t : Token} (h : (Tok.lex t).kind = t_eof) : t = .end_ := by
  match t with
  | .end_ => rfl
  | .word _ => cases h
  | .punct b =>
    simp only [Tok.kind] at h
    cases hl : charKinds.lookup b with
    | none => rw [hl] at h; cases h
    | some k =>
      rw [hl] at h
      have := lookup_ge hl
      simp only [Option.getD_some] at h
      subst h
      exact absurd this (by decide)

theorem begins_char : ∀ b : Text.Byte, (b ∈ ['@', '/', '*', '+', '%', '{', '(', '<'].map ch) ↔
    mem ((charKinds.lookup b).getD t_undef) stmtFirst = true := by
  have h : ∀ n : Fin 256, (UInt8.ofNat n.val ∈ ['@', '/', '*', '+', '%', '{', '(', '<'].map ch) ↔
    mem ((charKinds.lookup (UInt8.ofNat n.val)).getD t_undef) stmtFirst = true := by decide +kernel
  intro b
  have := h ⟨b.toNat, b.toNat_lt⟩
  simpa using this

theorem begins_iff (t : Token) : Begins t ↔ mem (Tok.lex t).kind stmtFirst = true := by
  match t with
  | .end_ => simp only [Begins, Tok.kind]; decide +kernel
  | .word w =>
    have : mem (Tok.lex (.word w)).kind stmtFirst = true := by show mem t_word stmtFirst = true; decide +kernel
    simp [Begins, this]
  | .punct b => exact begins_char b

theorem not_begins_iff (rest : List Token) : (∀ t ∈ rest.head?, ¬ Begins t) ↔ mem (look (rest.map .lex)) stmtFirst = false := by
  cases rest with
  | nil => simp only [List.head?_nil, Option.mem_def, reduceCtorEq, false_imp_iff, implies_true, List.map_nil, look, true_iff]; decide +kernel
  | cons t r => simp [look, begins_iff]

theorem atEnd_iff (rest : List Token) : AtEnd rest ↔ look (rest.map .lex) = t_eof := by
  cases rest with
  | nil => simp [AtEnd, look]
  | cons t r =>
    simp only [AtEnd, List.head?_cons, Option.mem_def, Option.some.injEq, forall_eq', List.map_cons, look]
    exact ⟨fun h => by rw [h]; rfl, kind_eof⟩

theorem height_program (s : SStmt) : (Node.program s).height = 1 + s.height := by
  have : 1 ≤ s.height := by cases s <;> exact Nat.le_max_left ..
  simp [Node.height, depth, depthSeq]; omega

theorem run_program {lim s rest} (h : ∀ t ∈ rest.head?, ¬ Begins t) :
    (1 + s.height ≤ lim → Steps nodes lim ⟨[], .program :: (s.toks ++ rest).map .lex, ()⟩
      ⟨[⟨acceptState, n_start, .program s⟩], rest.map .lex, ()⟩) ∧
    (lim < 1 + s.height → Ends nodes lim ⟨[], .program :: (s.toks ++ rest).map .lex, ()⟩ (.exhausted ())) := by
  have := run_start (v := .program s) (.inl rfl) (.startProgram s) (App.startProgram s).build (fun v _ => der_of _ v rfl) lim (rest.map .lex)
    (.inr ((not_begins_iff rest).mp h))
  rw [height_program] at this
  simpa [Node.toks] using this

theorem run_programV {lim s rest e} (h : ∀ t ∈ rest.head?, ¬ Begins t) (he : s.ast = some e) :
    1 + s.height ≤ lim → Steps nodesV lim ⟨[], .program :: (s.toks ++ rest).map .lex, ()⟩
      ⟨[⟨acceptState, n_start, .program s⟩], rest.map .lex, ()⟩ := by
  have hv : ∀ v ∈ [Node.tok .program, .stmt s], Der Node.tok buildV v.sym v.toks v v.height := by
    intro v hv
    refine derV_of _ v rfl ?_
    simp only [List.mem_cons, List.not_mem_nil, or_false] at hv
    rcases hv with rfl | rfl
    · exact ⟨_, rfl⟩
    · simp [Node.val, he]
  have := run_start (b := buildV) (v := .program s) (.inl rfl) (.startProgram s) (by simp [buildV, (App.startProgram s).build, Node.val, he]) hv
    lim (rest.map .lex) (.inr ((not_begins_iff rest).mp h))
  rw [height_program] at this
  simpa [Node.toks] using this.1

theorem accepting {V σ : Type} {sem : Sem V σ} {lim : Nat} {x v rest st} : ∀ c', step sem lim ⟨[⟨acceptState, x, v⟩], rest, st⟩ ≠ .run c' :=
  fun _ => accept_end rfl

theorem accept_step {V σ : Type} {sem : Sem V σ} {lim : Nat} {x v rest st} : step sem lim ⟨[⟨acceptState, x, v⟩], rest, st⟩ =
    if look rest = t_eof then .done (.accepted st) else .done (.syntaxError st) := by
  have h3 := List.all_eq_true.mp accept_end_ok _ (List.mem_range.mpr (look_lt rest))
  unfold step
  simp only [top]
  cases ha : action acceptState (look rest) with
  | accept => rw [if_pos (action_accept ha).2]
  | error =>
    rw [if_neg]
    intro hae
    rw [hae] at ha
    have : action acceptState t_eof = .accept := by decide +kernel
    rw [this] at ha
    cases ha
  | shift t => rw [ha] at h3; cases h3
  | reduce r => rw [ha] at h3; cases h3

/-- When a program has been recognised. -/
theorem done_program {toks lim cB cC} (h : Good toks lim cB cC) {e : Expr} (he : cC.st.result = some e) :
    ∃ s, cB.stack = [⟨acceptState, n_start, .program s⟩] ∧ s.ast = some e ∧ mem (look cB.rest) stmtFirst = false ∧
      toks = .program :: s.toks.map .lex ++ cB.rest ∧ cC.st.deps = s.mods.foldl addDep [] := by
  have hr := h.rel.result
  rw [he] at hr
  cases hst : cB.stack with
  | nil => rw [hst] at hr; cases hr
  | cons b S =>
    rw [hst] at hr
    simp only [resultOf] at hr
    cases hv : b.val with
    | program s =>
      rw [hv] at hr
      have hR := h.rel.stack
      rw [hst] at hR
      obtain ⟨u, hS, hu⟩ := h.inv
      rw [hst] at hS
      have hsym : b.sym = n_start := by
        cases hR' : cC.stack with
        | nil => rw [hR'] at hR; cases hR
        | cons c C =>
          rw [hR'] at hR
          cases hR with
          | cons h1 _ => have := h1.node; rw [hv] at this; exact this.symm
      obtain ⟨hS0, hacc⟩ := stackOk_start hS hsym
      subst hS0
      have hb : b = ⟨acceptState, n_start, .program s⟩ := by
        obtain ⟨b1, b2, b3⟩ := b
        simp only at hacc hsym hv
        subst hacc hsym hv
        rfl
      refine ⟨s, by rw [hb], hr.symm, h.stmt b [] hst (.inr ⟨s, hv⟩), ?_, ?_⟩
      · rw [hb] at hS
        cases hS with
        | cons hS' _ hd =>
          cases hS' with
          | nil =>
            have := (der_node (by decide) hd).2.1
            simp only [Node.toks] at this
            rw [← hu, ← this]
            simp
      · rw [h.rel.deps, hst]
        simp [modsOf, hv, Node.mods]
    | _ => rw [hv] at hr; cases hr

theorem map_lex_inj {a b : List Token} {r} (h : Tok.program :: a.map Tok.lex = .program :: b.map Tok.lex ++ r) :
    ∃ r', r = r'.map .lex ∧ a = b ++ r' := by
  simp only [List.cons_append, List.cons.injEq, true_and] at h
  have h2 := h
  rw [List.map_eq_append_iff] at h2
  obtain ⟨l1, l2, rfl, h3, h4⟩ := h2
  have : l1 = b := by
    have hinj : Function.Injective Tok.lex := fun _ _ h => by cases h; rfl
    exact (List.map_inj_right (fun _ _ h => by cases h; rfl)).mp h3
  subst this
  exact ⟨l2, h4.symm, rfl⟩

/-! ### C67 -/

/-- C67. The parser stops on every input, with one outcome. -/
theorem C67_total (toks : List Token) :
    (∃ result deps ok, FbleParse toks result deps ok) ∧
    ∀ r d o r' d' o', FbleParse toks r d o → FbleParse toks r' d' o' → r = r' ∧ d = d' ∧ o = o' := by
  constructor
  · obtain ⟨o, s, h1, h2⟩ := yyparse_ends .program toks
    exact ⟨_, _, _, o, s, h1, h2, rfl, rfl, rfl⟩
  · rintro r d o r' d' o' ⟨o1, s1, h1, h2, h3, h4, h5⟩ ⟨o2, s2, g1, g2, g3, g4, g5⟩
    have := Ends.unique h1 g1
    subst this
    rw [h2] at g2
    cases g2
    exact ⟨h3 ▸ g3, h4 ▸ g4, h5 ▸ g5⟩

/-- The outcome for a program. -/
theorem parse_program {toks s rest e} (h : Parses toks s rest) (he : s.ast = some e) (hd : s.height < maxDepth) :
    ∃ deps ok, FbleParse toks (some e) deps ok ∧ deps = s.mods.foldl addDep [] ∧ (ok = true ↔ AtEnd rest) := by
  obtain ⟨rfl, hb⟩ := h
  have hg := Good.init (.program :: (s.toks ++ rest).map .lex) maxDepth
  obtain ⟨cC, h1, h2⟩ := hg.steps_of_nodesV (run_programV hb he (by omega))
  have hres : cC.st.result = some e := by rw [h2.rel.result]; exact he
  have hdep : cC.st.deps = s.mods.foldl addDep [] := by rw [h2.rel.deps]; simp [modsOf, Node.mods]
  cases h2.both with
  | run a _ _ => exact absurd a (accepting _)
  | failed _ a _ => rw [hres] at a; cases a
  | syntaxError a b =>
    refine ⟨_, false, ⟨_, cC.st, ⟨cC, h1, b⟩, rfl, hres, rfl, rfl⟩, hdep, ?_⟩
    rw [atEnd_iff]
    rw [accept_step] at a
    split at a
    · cases a
    · simpa
  | accepted a b =>
    refine ⟨_, true, ⟨_, cC.st, ⟨cC, h1, b⟩, rfl, hres, rfl, rfl⟩, hdep, ?_⟩
    rw [atEnd_iff]
    rw [accept_step] at a
    split at a
    · simpa
    · cases a
  | exhausted a _ _ _ =>
    rw [accept_step] at a
    split at a <;> cases a

/-- What is parsed is a program. -/
theorem program_of_parse {toks e deps ok} (h : FbleParse toks (some e) deps ok) :
    ∃ s rest, Parses toks s rest ∧ s.ast = some e ∧ s.height < maxDepth := by
  obtain ⟨o, st, ⟨cC, h1, h2⟩, h3, h4, h5, h6⟩ := h
  obtain ⟨cB, g1, g2⟩ := (Good.init (.program :: toks.map .lex) maxDepth).steps h1
  have hres : cC.st.result = some e := by
    cases g2.both with
    | run _ a _ => rw [a] at h2; cases h2
    | failed a b _ => rw [a] at h2; cases h2; cases h3; rw [b] at h4; cases h4
    | syntaxError _ a => rw [a] at h2; cases h2; cases h3; exact h4
    | accepted _ a => rw [a] at h2; cases h2; cases h3; exact h4
    | exhausted _ a b _ => rw [a] at h2; cases h2; cases h3; rw [b] at h4; cases h4
  obtain ⟨s, k1, k2, k3, k4, k5⟩ := done_program g2 hres
  obtain ⟨r, k6, rfl⟩ := map_lex_inj k4
  rw [k6] at k3
  have hb := (not_begins_iff r).mpr k3
  refine ⟨s, r, ⟨rfl, hb⟩, k2, ?_⟩
  by_contra hlt
  have hex := (run_program (lim := maxDepth) hb).2 (show maxDepth < 1 + s.height by omega)
  have hcB : cB = ⟨[⟨acceptState, n_start, .program s⟩], r.map .lex, ()⟩ := by
    obtain ⟨b1, b2, b3⟩ := cB
    simp only at k1 k6
    subst k1 k6
    rfl
  rw [hcB] at g1
  have hdone := not_ends_of_steps g1 accepting hex
  rw [accept_step] at hdone
  split at hdone <;> cases hdone

/-- C67. The parser returns a program exactly if the tokens are one of the programs of the grammar, followed by nothing that can begin a
statement, with no `e; s` other than for a select; and the program is the one written.  The exception: programs that need
more of the parser's stack than it can have. -/
theorem C67_parses (toks : List Token) (e : Expr) :
    (∃ deps ok, FbleParse toks (some e) deps ok) ↔
    ∃ s rest, Parses toks s rest ∧ s.ast = some e ∧ s.height < 9998 := by
  constructor
  · rintro ⟨deps, ok, h⟩
    exact program_of_parse h
  · rintro ⟨s, rest, h1, h2, h3⟩
    obtain ⟨deps, ok, h, -⟩ := parse_program h1 h2 h3
    exact ⟨deps, ok, h⟩

/-- C67. The grammar is not ambiguous: tokens can be read as a program in only one way. -/
theorem C67_unambiguous {toks s rest s' rest'} (h : Parses toks s rest) (h' : Parses toks s' rest') : s = s' ∧ rest = rest' := by
  obtain ⟨rfl, hb⟩ := h
  obtain ⟨he, hb'⟩ := h'
  have h1 := (run_program (s := s) (lim := 1 + s.height + s'.height) hb).1 (by omega)
  have h2 := (run_program (s := s') (lim := 1 + s.height + s'.height) hb').1 (by omega)
  rw [he] at h1
  have := Steps.unique h1 h2 accepting accepting
  simp only [Cfg.mk.injEq, List.cons.injEq, Entry.mk.injEq, Node.program.injEq, true_and, and_true] at this
  refine ⟨this.1, (List.map_inj_right (fun _ _ h => by cases h; rfl)).mp this.2⟩

/-- C67. No error is reported exactly if the tokens are a program and nothing else. -/
theorem C67_no_error (toks : List Token) :
    (∃ result deps, FbleParse toks result deps true) ↔
    ∃ (s : SStmt) (rest : List Token) (e : Expr), toks = s.toks ++ rest ∧ AtEnd rest ∧ s.ast = some e ∧ s.height < 9998 := by
  constructor
  · rintro ⟨result, deps, h⟩
    cases result with
    | some e =>
      obtain ⟨s, rest, h1, h2, h3⟩ := program_of_parse h
      obtain ⟨d, ok, g1, g2, g3⟩ := parse_program h1 h2 h3
      obtain ⟨-, -, rfl⟩ := (C67_total toks).2 _ _ _ _ _ _ h g1
      exact ⟨s, rest, e, h1.1, g3.mp rfl, h2, h3⟩
    | none =>
      exfalso
      obtain ⟨o, st, ⟨cC, h1, h2⟩, h3, h4, h5, h6⟩ := h
      obtain ⟨cB, g1, g2⟩ := (Good.init (.program :: toks.map .lex) maxDepth).steps h1
      cases g2.both with
      | run _ a _ => rw [a] at h2; cases h2
      | failed a b _ => rw [a] at h2; cases h2; cases h6
      | syntaxError _ a => rw [a] at h2; cases h2; cases h6
      | exhausted _ a b _ => rw [a] at h2; cases h2; cases h6
      | accepted a b =>
        rw [b] at h2
        cases h2
        cases h3
        rcases g2.inv.step (lim := maxDepth) total with ⟨c', k, _⟩ | k | k | ⟨k, k1, t, v, h, u, k2, k3, k4⟩
        · rw [show step (builder Node.tok build) maxDepth cB = .done (.accepted ()) from a] at k; cases k
        · rw [show step (builder Node.tok build) maxDepth cB = .done (.accepted ()) from a] at k; cases k
        · rw [show step (builder Node.tok build) maxDepth cB = .done (.accepted ()) from a] at k; cases k
        · obtain ⟨m1, m2, m3⟩ := der_node (by decide) k3
          have hr := g2.rel.result
          rw [h4, k2] at hr
          simp only [resultOf] at hr
          have hR := g2.rel.stack
          rw [k2] at hR
          cases hC : cC.stack with
          | nil => rw [hC] at hR; cases hR
          | cons c C =>
            rw [hC] at hR
            cases hR with
            | cons hE _ =>
              have hval := hE.val
              simp only at hval
              cases v with
              | program s =>
                simp only [Node.val, Option.map_eq_some_iff] at hval
                obtain ⟨e, he, -⟩ := hval
                simp only [Node.result] at hr
                rw [he] at hr
                cases hr
              | start p =>
                simp only [Node.toks] at m2
                rw [← m2] at k4
                simp at k4
              | tok t => exact (tok_nonterminal m1 (by decide)).elim
              | _ => simp only [Node.sym] at m1; exact absurd m1 (by decide)
  · rintro ⟨s, rest, e, rfl, h2, h3, h4⟩
    have hb : ∀ t ∈ rest.head?, ¬ Begins t := by
      intro t ht hbt
      rw [h2 t ht] at hbt
      exact hbt
    obtain ⟨d, ok, g1, g2, g3⟩ := parse_program ⟨rfl, hb⟩ h3 h4
    rw [g3.mpr h2] at g1
    exact ⟨_, _, g1⟩

/-! ### C68 -/

/-- The elements of a list, without those that came before. -/
def firsts : List Text.Path → List Text.Path
  | [] => []
  | p :: ps => p :: (firsts ps).filter (· ≠ p)

theorem addDep_eq (deps : List Text.Path) (p) : addDep deps p = if p ∈ deps then deps else deps ++ [p] := by
  unfold addDep
  have : (deps.any fun d => Text.pathsEqual d p) = true ↔ p ∈ deps := by
    simp only [List.any_eq_true, Text.C34_paths_equal]
    exact ⟨fun ⟨x, h, e⟩ => e ▸ h, fun h => ⟨p, h, rfl⟩⟩
  simp only [this]

theorem foldl_addDep (l : List Text.Path) : ∀ deps : List Text.Path, l.foldl addDep deps = deps ++ (firsts l).filter (· ∉ deps) := by
  induction l with
  | nil => intro deps; simp [firsts]
  | cons p l ih =>
    intro deps
    rw [List.foldl_cons, ih, addDep_eq]
    split
    · rename_i h
      simp only [firsts, List.filter_cons, h, not_true_eq_false, decide_false, Bool.false_eq_true, if_false, List.filter_filter]
      congr 1
      apply List.filter_congr
      intro x hx
      by_cases hxp : x = p
      · subst hxp; simp [h]
      · simp [hxp]
    · rename_i h
      simp only [firsts, List.filter_cons, h, not_false_eq_true, decide_true, if_true, List.filter_filter, List.append_assoc,
        List.singleton_append]
      congr 2
      apply List.filter_congr
      intro x hx
      simp [not_or, Bool.and_comm]

theorem mem_firsts {p : Text.Path} {l : List Text.Path} : p ∈ firsts l ↔ p ∈ l := by
  induction l with
  | nil => simp [firsts]
  | cons q l ih =>
    simp only [firsts, List.mem_cons, List.mem_filter, ih, decide_eq_true_eq]
    by_cases h : p = q <;> simp [h]

theorem nodup_firsts (l : List Text.Path) : (firsts l).Nodup := by
  induction l with
  | nil => simp [firsts]
  | cons q l ih =>
    simp only [firsts, List.nodup_cons]
    exact ⟨by simp, ih.filter _⟩

/-- C68. The modules reported for a program are those its text refers to, in the order of their first occurrences, each once. -/
theorem C68_deps {toks s rest e deps ok} (h : FbleParse toks (some e) deps ok) (hs : Parses toks s rest) :
    deps = firsts s.mods ∧ deps.Nodup ∧ ∀ p, p ∈ deps ↔ p ∈ s.mods := by
  obtain ⟨s', rest', h1, h2, h3⟩ := program_of_parse h
  obtain ⟨rfl, rfl⟩ := C67_unambiguous hs h1
  obtain ⟨d, ok', g1, g2, -⟩ := parse_program h1 h2 h3
  obtain ⟨-, rfl, -⟩ := (C67_total toks).2 _ _ _ _ _ _ h g1
  have : deps = firsts s.mods := by rw [g2, foldl_addDep]; simp
  rw [this]
  exact ⟨rfl, nodup_firsts _, fun p => mem_firsts⟩

end Verif.Parse
