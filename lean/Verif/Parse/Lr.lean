import Verif.Parse.Check
import Verif.Parse.Machine
/-
The parser does what the grammar says: proofs for actions that build something from derivations.
-/
namespace Verif.Parse

/-! ### Facts about the tables -/

theorem lookup_lt {l : List (Text.Byte × Nat)} {b k n} (h : l.lookup b = some k) (hl : ∀ x ∈ l, x.2 < n) : k < n := by
  induction l with
  | nil => cases h
  | cons x l ih =>
    obtain ⟨y, c⟩ := x
    simp only [List.lookup] at h
    split at h
    · cases h; exact hl _ (.head _)
    · exact ih h fun x hx => hl x (.tail _ hx)

theorem Tok.kind_lt (t : Tok) : t.kind < numTerminals := by
  match t with
  | .program => decide
  | .modulePath => decide
  | .lex .end_ => decide
  | .lex (.word _) => show t_word < numTerminals; decide
  | .lex (.punct b) =>
    simp only [Tok.kind]
    cases h : charKinds.lookup b with
    | none => decide
    | some k => exact lookup_lt h (by decide)

theorem look_lt : (l : List Tok) → look l < numTerminals
  | [] => by decide
  | t :: _ => t.kind_lt

theorem eof_ok : allStates (fun s => (transitions s).all fun (x, _) => !Nat.beq x 0) = true := by decide +kernel

theorem dot_ok : allStates (fun s => (items s).all fun it => Nat.ble it.dot it.rule.rhs.length) = true := by decide +kernel

theorem zero_ok : (items 0).all (fun it => Nat.beq it.dot 0) = true := by decide +kernel

theorem no_shift_eof {s t} (h : action s t_eof = .shift t) : False := by
  have hm := Trans.mem (.inl ⟨by decide, h⟩)
  have := List.all_eq_true.mp (allStates_iff eof_ok hm.2) _ hm.1
  simp at this

theorem item_shift {s it x} (h : it ∈ items s) (hx : it.rule.rhs[it.dot]? = some x) (hlt : x < numTerminals)
    (ha : it.rule ≠ .accept) :
    ∃ t, action s x = .shift t ∧ ∃ it' ∈ items t, it'.rule = it.rule ∧ it'.dot = it.dot + 1 ∧ sub it.look it'.look = true := by
  have h1 := List.all_eq_true.mp (allStates_iff items_ok (items_lt h)) _ h
  obtain ⟨hl, he⟩ := List.getElem?_eq_some_iff.mp hx
  have hd := List.drop_eq_getElem_cons hl
  rw [he] at hd
  simp only [itemOk, hd] at h1
  rw [if_pos hlt] at h1
  simp only [ha, false_and, decide_false, Bool.false_or] at h1
  cases hact : action s x with
  | shift t => rw [hact] at h1; exact ⟨t, rfl, has_iff h1⟩
  | reduce _ => rw [hact] at h1; cases h1
  | accept => rw [hact] at h1; cases h1
  | error => rw [hact] at h1; cases h1

theorem item_goto {s it x} (h : it ∈ items s) (hx : it.rule.rhs[it.dot]? = some x) (hlt : ¬ x < numTerminals) :
    (∃ t, goto s x = some t ∧ ∃ it' ∈ items t, it'.rule = it.rule ∧ it'.dot = it.dot + 1 ∧ sub it.look it'.look = true) ∧
    ∀ r : Rule, r.lhs = x → ∃ it' ∈ items s, it'.rule = r ∧ it'.dot = 0 ∧
      sub (firstSeq (it.rule.rhs.drop (it.dot + 1)) it.look) it'.look = true := by
  have h1 := List.all_eq_true.mp (allStates_iff items_ok (items_lt h)) _ h
  obtain ⟨hl, he⟩ := List.getElem?_eq_some_iff.mp hx
  have hd := List.drop_eq_getElem_cons hl
  rw [he] at hd
  simp only [itemOk, hd] at h1
  rw [if_neg hlt] at h1
  have hna : ¬ (it.rule = .accept ∧ it.dot = 1) := by
    rintro ⟨h2, h3⟩
    rw [h2, h3] at hx
    simp [Rule.rhs] at hx
    subst hx
    exact hlt (by decide)
  simp only [hna, decide_false, Bool.false_or, Bool.and_eq_true] at h1
  obtain ⟨h1, h2⟩ := h1
  refine ⟨?_, fun r hr => ?_⟩
  · cases hg : goto s x with
    | none => rw [hg] at h1; cases h1
    | some t => rw [hg] at h1; exact ⟨t, rfl, has_iff h1⟩
  · have := List.all_eq_true.mp h2 r (mem_rules r)
    rw [hr] at this
    simp only [Nat.beq_refl, Bool.not_true, Bool.false_or] at this
    exact has_iff (by simpa using this)

theorem item_reduce {s it a} (h : it ∈ items s) (hd : it.dot = it.rule.rhs.length) (ha : mem a it.look = true)
    (hlt : a < numTerminals) : action s a = .reduce it.rule := by
  have h1 := List.all_eq_true.mp (allStates_iff items_ok (items_lt h)) _ h
  simp only [itemOk, hd, List.drop_length] at h1
  have := List.all_eq_true.mp h1 a (List.mem_range.mpr hlt)
  simpa [ha] using this

theorem first_rule (r : Rule) : sub (firstSeq r.rhs 0) (first r.lhs) = true ∧ (r.rhs.all nullable = true → nullable r.lhs = true) := by
  have := List.all_eq_true.mp first_ok r (mem_rules r)
  simp only [Bool.and_eq_true, Bool.or_eq_true, Bool.not_eq_true'] at this
  refine ⟨this.1, fun h => ?_⟩
  rcases this.2 with h' | h'
  · rw [h] at h'; cases h'
  · exact h'

theorem back {s x t it'} (h : Trans s x t) (hi : it' ∈ items t) (hd : it'.dot ≠ 0) :
    ∃ it ∈ items s, it.rule = it'.rule ∧ it.dot + 1 = it'.dot ∧ it.rule.rhs[it.dot]? = some x := by
  have hm := h.mem
  have h1 := List.all_eq_true.mp (allStates_iff back_ok hm.2) _ hm.1
  simp only [Bool.and_eq_true] at h1
  have h2 := List.all_eq_true.mp h1.2 it' hi
  rw [Bool.or_eq_true] at h2
  rcases h2 with h2 | h2
  · exact absurd (Nat.eq_of_beq_eq_true h2) hd
  · obtain ⟨it, hit, h3⟩ := List.any_eq_true.mp h2
    simp only [Bool.and_eq_true, decide_eq_true_eq] at h3
    exact ⟨it, hit, h3.1.1, Nat.eq_of_beq_eq_true h3.1.2, h3.2⟩

theorem trans_ne_zero {s x t} (h : Trans s x t) : t ≠ 0 := by
  have hm := h.mem
  have h1 := List.all_eq_true.mp (allStates_iff back_ok hm.2) _ hm.1
  simp only [Bool.and_eq_true, Bool.not_eq_true'] at h1
  rintro rfl
  simp at h1

theorem red {s a r} (h : action s a = .reduce r) :
    r ≠ .accept ∧ ∃ it ∈ items s, it.rule = r ∧ it.dot = r.rhs.length := by
  have hm := action_reduce_mem h
  have h1 := List.all_eq_true.mp (allStates_iff red_ok hm.2) _ hm.1
  simp only [Bool.and_eq_true, decide_eq_true_eq] at h1
  refine ⟨h1.1, ?_⟩
  obtain ⟨it, hit, h3⟩ := List.any_eq_true.mp h1.2
  simp only [Bool.and_eq_true, decide_eq_true_eq] at h3
  exact ⟨it, hit, h3.1, Nat.eq_of_beq_eq_true h3.2⟩

theorem goto_def {s it} (h : it ∈ items s) (hd : it.dot = 0) :
    (it.rule = .accept → s = 0) ∧ (it.rule ≠ .accept → ∃ t, goto s it.rule.lhs = some t) := by
  have h1 := List.all_eq_true.mp (allStates_iff goto_ok (items_lt h)) _ h
  rw [hd] at h1
  simp only [Nat.beq_refl, Bool.not_true, Bool.false_or] at h1
  constructor
  · intro ha; rw [if_pos ha] at h1; exact Nat.eq_of_beq_eq_true h1
  · intro ha; rw [if_neg ha] at h1; exact Option.isSome_iff_exists.mp h1

theorem lhs_nonterminal (r : Rule) : numTerminals ≤ r.lhs := by cases r <;> decide

/-! ### Derivations -/

/-- The height of the stack needed to recognise the parts of a right hand side one after the other, given
what each part needs. -/
def depthSeq : List Nat → Nat
  | [] => 0
  | h :: hs => max h (1 + depthSeq hs)

/-- The same, together with the result itself. -/
def depth (hs : List Nat) : Nat := max 1 (depthSeq hs)

variable {V : Type} (leaf : Tok → V) (build : Rule → List V → Option V)

mutual
/-- The symbol derives the tokens, with a value built by the productions used; the number is the
height of the stack needed. -/
inductive Der : Nat → List Tok → V → Nat → Prop where
  | leaf (t : Tok) : Der t.kind [t] (leaf t) 1
  | node {r : Rule} {w vs hs v} : Ders r.rhs w vs hs → build r vs = some v → Der r.lhs w v (depth hs)
/-- The same for a sequence of symbols. -/
inductive Ders : List Nat → List Tok → List V → List Nat → Prop where
  | nil : Ders [] [] [] []
  | cons {x xs w w' v vs h hs} : Der x w v h → Ders xs w' vs hs → Ders (x :: xs) (w ++ w') (v :: vs) (h :: hs)
end

/-- The parser that builds values. -/
def builder : Sem V Unit where
  leaf := leaf
  act r vs _ := match build r vs with
    | some v => .ok v ()
    | none => .crash

variable {leaf build}

theorem Ders.snoc {xs w vs hs} (h : Ders leaf build xs w vs hs) {x w' v k} (hx : Der leaf build x w' v k) :
    Ders leaf build (xs ++ [x]) (w ++ w') (vs ++ [v]) (hs ++ [k]) := by
  match h with
  | .nil => have := Ders.cons hx .nil; simpa using this
  | .cons h hs => have := Ders.cons h (Ders.snoc hs hx); simpa [List.append_assoc] using this

theorem Der.pos {x w v h} (hd : Der leaf build x w v h) : 1 ≤ h := by
  cases hd with
  | leaf t => exact Nat.le_refl _
  | node _ _ => exact Nat.le_max_left ..

theorem Ders.length {xs w vs hs} (h : Ders leaf build xs w vs hs) : vs.length = xs.length ∧ hs.length = xs.length := by
  match h with
  | .nil => simp
  | .cons _ h => have := Ders.length h; simp [this]

/-! ### Soundness -/

/-- The stack is a path through the automaton, and its symbols derive the tokens read. -/
inductive StackOk (leaf : Tok → V) (build : Rule → List V → Option V) : List (Entry V) → List Tok → Prop where
  | nil : StackOk leaf build [] []
  | cons {S u t x v w h} : StackOk leaf build S u → Trans (top S) x t → Der leaf build x w v h →
      StackOk leaf build (⟨t, x, v⟩ :: S) (u ++ w)

theorem StackOk.pop (d : Nat) : ∀ {S u it}, StackOk leaf build S u → it ∈ items (top S) → it.dot = d →
    d ≤ S.length ∧ ∃ u' w hs, StackOk leaf build (S.drop d) u' ∧ u = u' ++ w ∧
      Ders leaf build (it.rule.rhs.take d) w ((S.take d).reverse.map (·.val)) hs ∧
      ∃ it0 ∈ items (top (S.drop d)), it0.rule = it.rule ∧ it0.dot = 0 := by
  induction d with
  | zero => intro S u it hS hi hd; exact ⟨Nat.zero_le _, u, [], [], hS, by simp, by simpa using Ders.nil, it, hi, rfl, hd⟩
  | succ d ih =>
    intro S u it hS hi hd
    cases hS with
    | nil =>
      have := List.all_eq_true.mp zero_ok it hi
      have := Nat.eq_of_beq_eq_true this
      omega
    | @cons S u t x v w h hS htr hder =>
      obtain ⟨it1, hi1, hr, hdot, hx⟩ := back htr hi (by omega)
      obtain ⟨hle, u', w', hs, h1, h2, h3, it0, h4, h5, h6⟩ := ih hS hi1 (by omega)
      refine ⟨by simp; omega, u', w' ++ w, hs ++ [h], h1, by rw [h2]; simp, ?_, it0, h4, by rw [h5, hr], h6⟩
      have hd1 : it1.dot = d := by omega
      rw [hd1] at hx
      have : it.rule.rhs.take (d + 1) = it1.rule.rhs.take d ++ [x] := by
        rw [← hr, List.take_add_one, hx]; rfl
      rw [this]
      have := h3.snoc hder
      simpa using this

theorem top_cons {e : Entry V} {S} : top (e :: S) = e.state := rfl

/-- What has been read and what is left. -/
def Inv (leaf : Tok → V) (build : Rule → List V → Option V) (toks : List Tok) (c : Cfg V Unit) : Prop :=
  ∃ u, StackOk leaf build c.stack u ∧ u ++ c.rest = toks

/-- The productions used can build a value. -/
def Total (leaf : Tok → V) (build : Rule → List V → Option V) : Prop :=
  ∀ r w vs hs, r ≠ .accept → Ders leaf build r.rhs w vs hs → ∃ v, build r vs = some v

/-- A reduction, in detail. -/
theorem reduce_ok {toks c r} (hT : Total leaf build) (hI : Inv leaf build toks c)
    (ha : action (top c.stack) (look c.rest) = .reduce r) :
    r.rhs.length ≤ c.stack.length ∧ ∃ u w hs v t, StackOk leaf build (c.stack.drop r.rhs.length) u ∧
      Ders leaf build r.rhs w ((c.stack.take r.rhs.length).reverse.map (·.val)) hs ∧ (u ++ w) ++ c.rest = toks ∧
      build r ((c.stack.take r.rhs.length).reverse.map (·.val)) = some v ∧
      goto (top (c.stack.drop r.rhs.length)) r.lhs = some t := by
  obtain ⟨u, hS, hu⟩ := hI
  obtain ⟨hne, it, hi, hr, hd⟩ := red ha
  obtain ⟨hle, u', w, hs, h1, h2, h3, it0, h4, h5, h6⟩ := hS.pop _ hi rfl
  rw [hd] at hle h1 h3 h4
  rw [hr] at h3
  rw [List.take_length] at h3
  obtain ⟨v, hv⟩ := hT r _ _ _ hne h3
  have hne' : it0.rule ≠ .accept := by rw [h5, hr]; exact hne
  obtain ⟨t, ht⟩ := (goto_def h4 h6).2 hne'
  rw [h5, hr] at ht
  exact ⟨hle, u', w, hs, v, t, h1, h3, by rw [← h2]; exact hu, hv, ht⟩

theorem Inv.step {lim toks c} (hT : Total leaf build) (hI : Inv leaf build toks c) :
    (∃ c', step (builder leaf build) lim c = .run c' ∧ Inv leaf build toks c') ∨
    step (builder leaf build) lim c = .done (.syntaxError ()) ∨
    step (builder leaf build) lim c = .done (.exhausted ()) ∨
    (step (builder leaf build) lim c = .done (.accepted ()) ∧ look c.rest = t_eof ∧
      ∃ t v h u, c.stack = [⟨t, n_start, v⟩] ∧ Der leaf build n_start u v h ∧ u ++ c.rest = toks) := by
  unfold Parse.step
  cases ha : action (top c.stack) (look c.rest) with
  | error => exact .inr (.inl rfl)
  | shift t =>
    dsimp only
    cases hrest : c.rest with
    | nil => rw [hrest] at ha; exact absurd ha fun h => no_shift_eof h
    | cons tok rest =>
      dsimp only [Parse.push]
      split
      · refine .inl ⟨_, rfl, ?_⟩
        obtain ⟨u, hS, hu⟩ := hI
        rw [hrest] at ha hu
        refine ⟨u ++ [tok], .cons hS (.inl ⟨tok.kind_lt, ha⟩) (.leaf tok), ?_⟩
        simpa using hu
      · exact .inr (.inr (.inl rfl))
  | reduce r =>
    obtain ⟨hle, u, w, hs, v, t, h1, h2, h3, hv, ht⟩ := reduce_ok hT hI ha
    dsimp only
    rw [if_neg (by omega)]
    simp only [builder, hv, ht, Parse.push]
    split
    · refine .inl ⟨_, rfl, _, .cons h1 (.inr ⟨lhs_nonterminal r, ht⟩) (.node h2 hv), h3⟩
    · exact .inr (.inr (.inl rfl))
  | accept =>
    refine .inr (.inr (.inr ⟨rfl, ?_⟩))
    obtain ⟨hs, he⟩ := action_accept ha
    refine ⟨he, ?_⟩
    obtain ⟨u, hS, hu⟩ := hI
    obtain ⟨it, hi⟩ := List.exists_mem_of_ne_nil _ accept_ok.2
    have hit := of_decide_eq_true (List.all_eq_true.mp accept_ok.1 it hi)
    rw [← hs] at hi
    generalize c.stack = St at hS hi
    cases hS with
    | nil =>
      have := Nat.eq_of_beq_eq_true (List.all_eq_true.mp zero_ok it hi)
      omega
    | @cons S u t x v w h hS htr hder =>
      obtain ⟨it1, hi1, hr, hdot, hx⟩ := back htr hi (by omega)
      have hacc : it1.rule = .accept := by rw [hr]; exact hit.1
      have hz : it1.dot = 0 := by omega
      have h0 := (goto_def hi1 hz).1 hacc
      rw [hacc, hz] at hx
      simp [Rule.rhs] at hx
      subst hx
      cases hS with
      | nil => exact ⟨t, v, h, w, rfl, hder, by simpa using hu⟩
      | cons _ htr' _ => exact absurd h0 (trans_ne_zero htr')

/-! ### Termination -/

/-- The weight of a stack. -/
def potential (S : List (Entry V)) : Nat := weights (S.map (·.sym)) + bonus (top S)

theorem weights_append (a b : List Nat) : weights (a ++ b) = weights a + weights b := by simp [weights]

theorem weights_reverse (a : List Nat) : weights a.reverse = weights a := by
  simp [weights]

theorem Ders.nil_of {w vs hs} (h : Ders leaf build [] w vs hs) : w = [] ∧ vs = [] := by cases h; exact ⟨rfl, rfl⟩

/-- The symbols popped are those of the right hand side. -/
theorem StackOk.syms (d : Nat) : ∀ {S u it}, StackOk leaf build S u → it ∈ items (top S) → it.dot = d →
    (S.take d).reverse.map (·.sym) = it.rule.rhs.take d := by
  induction d with
  | zero => intro S u it hS hi hd; simp
  | succ d ih =>
    intro S u it hS hi hd
    cases hS with
    | nil =>
      have := Nat.eq_of_beq_eq_true (List.all_eq_true.mp zero_ok it hi)
      omega
    | @cons S u t x v w h hS htr hder =>
      obtain ⟨it1, hi1, hr, hdot, hx⟩ := back htr hi (by omega)
      have := ih hS hi1 (by omega)
      have hd1 : it1.dot = d := by omega
      rw [hd1] at hx
      have h2 : it.rule.rhs.take (d + 1) = it1.rule.rhs.take d ++ [x] := by
        rw [← hr, List.take_add_one, hx]; rfl
      rw [h2, ← this]
      simp

theorem goto_bonus {s x t} (h : goto s x = some t) : bonus t = 0 := by
  obtain ⟨row, hr, hm⟩ := goto_some h
  have := allStates_iff bonus_ok (table_lt hr)
  rw [hr] at this
  exact Nat.eq_of_beq_eq_true (List.all_eq_true.mp this _ hm)

theorem step_decreases {lim toks c c'} (hT : Total leaf build) (hI : Inv leaf build toks c)
    (h : step (builder leaf build) lim c = .run c') :
    c'.rest.length < c.rest.length ∨ (c'.rest = c.rest ∧ potential c'.stack < potential c.stack) := by
  unfold Parse.step at h
  cases ha : action (top c.stack) (look c.rest) with
  | error => rw [ha] at h; cases h
  | accept => rw [ha] at h; cases h
  | shift t =>
    rw [ha] at h
    dsimp only at h
    cases hrest : c.rest with
    | nil => rw [hrest] at h; cases h
    | cons tok rest =>
      rw [hrest] at h
      dsimp only [Parse.push] at h
      split at h
      · cases h; left; simp
      · cases h
  | reduce r =>
    rw [ha] at h
    obtain ⟨hle, u, w, hs, v, t, h1, h2, h3, hv, ht⟩ := reduce_ok hT hI ha
    dsimp only at h
    rw [if_neg (by omega)] at h
    simp only [builder, hv, ht, Parse.push] at h
    split at h
    · cases h
      refine .inr ⟨rfl, ?_⟩
      obtain ⟨u0, hS, -⟩ := hI
      obtain ⟨hne, it, hi, hr, hd⟩ := red ha
      have hsy := hS.syms _ hi rfl
      rw [hd, hr, List.take_length] at hsy
      have hw : weights (c.stack.map (·.sym)) = weights r.rhs + weights ((c.stack.drop r.rhs.length).map (·.sym)) := by
        have h4 : weights r.rhs = weights ((c.stack.take r.rhs.length).map (·.sym)) := by
          conv => lhs; rw [← hsy, List.map_reverse, weights_reverse]
        rw [h4, ← weights_append, ← List.map_append, List.take_append_drop]
      have hm := action_reduce_mem ha
      have hle := Nat.le_of_ble_eq_true (List.all_eq_true.mp (allStates_iff weight_ok hm.2) _ hm.1)
      simp only [potential, List.map_cons, top_cons, goto_bonus ht, hw]
      have : weights (r.lhs :: (c.stack.drop r.rhs.length).map (·.sym)) = weight r.lhs + weights ((c.stack.drop r.rhs.length).map (·.sym)) := by
        simp [weights]
      rw [this]
      omega
    · cases h

theorem Ends.head {σ} {sem : Sem V σ} {lim c c' o} (h : step sem lim c = .run c') (h' : Ends sem lim c' o) : Ends sem lim c o := by
  obtain ⟨c2, h1, h2⟩ := h'
  exact ⟨c2, .head h h1, h2⟩

/-- The parser ends for every input: it accepts a derivation, or there is an error. -/
theorem ends_of_inv (lim : Nat) {toks} (hT : Total leaf build) : ∀ (n m : Nat) (c : Cfg V Unit), c.rest.length = n → potential c.stack = m →
    Inv leaf build toks c → Ends (builder leaf build) lim c (.syntaxError ()) ∨ Ends (builder leaf build) lim c (.exhausted ()) ∨
      (Ends (builder leaf build) lim c (.accepted ())) := by
  intro n
  induction n using Nat.strongRecOn with
  | _ n ihn =>
    intro m
    induction m using Nat.strongRecOn with
    | _ m ihm =>
      intro c hn hm hI
      rcases hI.step (lim := lim) hT with ⟨c', hs, hI'⟩ | hs | hs | ⟨hs, -⟩
      · have hrec : Ends (builder leaf build) lim c' (.syntaxError ()) ∨ Ends (builder leaf build) lim c' (.exhausted ()) ∨
            Ends (builder leaf build) lim c' (.accepted ()) := by
          rcases step_decreases hT hI hs with hlt | ⟨heq, hlt⟩
          · exact ihn _ (by omega) _ c' rfl rfl hI'
          · exact ihm _ (by omega) c' (by rw [heq]; exact hn) rfl hI'
        rcases hrec with h | h | h
        · exact .inl (.head hs h)
        · exact .inr (.inl (.head hs h))
        · exact .inr (.inr (.head hs h))
      · exact .inl ⟨c, .refl _, hs⟩
      · exact .inr (.inl ⟨c, .refl _, hs⟩)
      · exact .inr (.inr ⟨c, .refl _, hs⟩)

/-! ### Completeness -/

theorem mem_first_kind (a : Nat) (h : a < numTerminals) : mem a (first a) = true := by
  simp [mem, first, h, Nat.shiftLeft_eq]

theorem firstSeq_nullable {a l : Nat} (ha : mem a l = true) : (xs : List Nat) → xs.all nullable = true → mem a (firstSeq xs l) = true
  | [], _ => ha
  | x :: xs, h => by
    simp only [List.all_cons, Bool.and_eq_true] at h
    simp only [firstSeq, h.1, if_true, mem_or, firstSeq_nullable ha xs h.2, Bool.or_true]

mutual
theorem Der.first {x w v h} (hd : Der leaf build x w v h) :
    (w = [] ∧ nullable x = true) ∨ ∃ t w', w = t :: w' ∧ mem t.kind (first x) = true := by
  match hd with
  | .leaf t => exact .inr ⟨t, [], rfl, mem_first_kind _ t.kind_lt⟩
  | .node (r := r) hds _ =>
    rcases Ders.first hds with ⟨h1, h2⟩ | ⟨t, w', h1, h2⟩
    · exact .inl ⟨h1, (first_rule r).2 h2⟩
    · exact .inr ⟨t, w', h1, mem_of_sub (first_rule r).1 (h2 0)⟩
theorem Ders.first {xs w vs hs} (hd : Ders leaf build xs w vs hs) :
    (w = [] ∧ xs.all nullable = true) ∨ ∃ t w', w = t :: w' ∧ ∀ l, mem t.kind (firstSeq xs l) = true := by
  match hd with
  | .nil => exact .inl ⟨rfl, rfl⟩
  | .cons h hs =>
    rcases Der.first h with ⟨h1, h2⟩ | ⟨t, w', h1, h2⟩
    · subst h1
      rcases Ders.first hs with ⟨h3, h4⟩ | ⟨t, w', h3, h4⟩
      · exact .inl ⟨by simp [h3], by simp [h2, h4]⟩
      · refine .inr ⟨t, w', by simp [h3], fun l => ?_⟩
        simp only [firstSeq, h2, if_true, mem_or, h4, Bool.or_true]
    · refine .inr ⟨t, w' ++ _, by rw [h1]; rfl, fun l => ?_⟩
      simp only [firstSeq]
      split
      · simp [mem_or, h2]
      · exact h2
end

theorem Ders.look {xs w vs hs rest l} (hd : Ders leaf build xs w vs hs) (hl : mem (look rest) l = true) :
    mem (look (w ++ rest)) (firstSeq xs l) = true := by
  rcases hd.first with ⟨rfl, h⟩ | ⟨t, w', rfl, h⟩
  · exact firstSeq_nullable hl _ h
  · exact h l

theorem Steps.trans {σ} {sem : Sem V σ} {lim a b c} (h : Steps sem lim a b) (h' : Steps sem lim b c) : Steps sem lim a c := by
  induction h with
  | refl => exact h'
  | head h1 _ ih => exact .head h1 (ih h')

theorem Ends.steps {σ} {sem : Sem V σ} {lim a b o} (h : Steps sem lim a b) (h' : Ends sem lim b o) : Ends sem lim a o := by
  obtain ⟨c, h1, h2⟩ := h'
  exact ⟨c, h.trans h1, h2⟩

theorem drop_succ_of {xs : List Nat} {d x β} (h : xs.drop d = x :: β) : xs[d]? = some x ∧ xs.drop (d + 1) = β := by
  constructor
  · have : (xs.drop d)[0]? = some x := by rw [h]; rfl
    simpa using this
  · rw [← List.drop_drop, h]; rfl

/-- After a reduction the parser is in the state after the left hand side. -/
theorem step_reduce {lim : Nat} {S S' : List (Entry V)} {rest r v t} (hS' : S'.length = r.rhs.length)
    (ha : action (top (S' ++ S)) (look rest) = .reduce r) (hv : build r (S'.reverse.map (·.val)) = some v)
    (ht : goto (top S) r.lhs = some t) :
    step (builder leaf build) lim ⟨S' ++ S, rest, ()⟩ = push lim ⟨t, r.lhs, v⟩ S rest () := by
  unfold Parse.step
  simp only [ha]
  rw [if_neg (by simp; omega)]
  simp only [← hS', List.take_left', List.drop_left']
  simp only [builder, hv, ht]

mutual
theorem Der.run {x w v h} (hd : Der leaf build x w v h) (lim : Nat) (S : List (Entry V)) (rest : List Tok) (it : Item)
    (hi : it ∈ items (top S)) (hx : it.rule.rhs[it.dot]? = some x) (hacc : it.rule ≠ .accept)
    (hl : mem (look rest) (firstSeq (it.rule.rhs.drop (it.dot + 1)) it.look) = true) (hS : S.length ≤ lim) :
    (S.length + h ≤ lim → ∃ t, Trans (top S) x t ∧ Steps (builder leaf build) lim ⟨S, w ++ rest, ()⟩ ⟨⟨t, x, v⟩ :: S, rest, ()⟩ ∧
      ∃ it' ∈ items t, it'.rule = it.rule ∧ it'.dot = it.dot + 1 ∧ sub it.look it'.look = true) ∧
    (lim < S.length + h → Ends (builder leaf build) lim ⟨S, w ++ rest, ()⟩ (.exhausted ())) := by
  match hd with
  | .leaf tok =>
    obtain ⟨t, ha, hit⟩ := item_shift hi hx tok.kind_lt hacc
    have hstep : step (builder leaf build) lim ⟨S, [tok] ++ rest, ()⟩ = push lim ⟨t, tok.kind, leaf tok⟩ S rest () := by
      unfold Parse.step
      simp only [List.singleton_append, look, ha, builder]
    constructor
    · intro hlim
      refine ⟨t, .inl ⟨tok.kind_lt, ha⟩, .head (c' := ⟨⟨t, tok.kind, leaf tok⟩ :: S, rest, ()⟩) ?_ (.refl _), hit⟩
      rw [hstep, push, if_pos hlim]
    · intro hlim
      exact ⟨_, .refl _, by rw [hstep, push, if_neg (by omega)]⟩
  | .node (r := r) (hs := hs) hds hb =>
    obtain ⟨⟨t, hg, hit⟩, hcl⟩ := item_goto hi hx (Nat.not_lt.mpr (lhs_nonterminal r))
    obtain ⟨it0, hi0, hr0, hd0, hsub⟩ := hcl r rfl
    have hl0 := mem_of_sub hsub hl
    have hdr : it0.rule.rhs.drop it0.dot = r.rhs := by rw [hr0, hd0]; rfl
    have hna : it0.rule ≠ .accept := by
      rw [hr0]
      rintro rfl
      have hno : ∀ r : Rule, n_accept ∉ r.rhs := by intro r; cases r <;> decide
      exact hno _ (List.mem_of_getElem? hx)
    obtain ⟨g1, g2⟩ := Ders.run hds lim S rest it0 hi0 hdr hna hl0 hS
    constructor
    · intro hlim
      have hlim' : S.length + depthSeq _ ≤ lim := Nat.le_trans (Nat.add_le_add_left (Nat.le_max_right 1 _) _) hlim
      have hlim1 : S.length + 1 ≤ lim := Nat.le_trans (Nat.add_le_add_left (Nat.le_max_left 1 _) _) hlim
      obtain ⟨S', h1, h2, h3, it', hi', hr', hd', hl'⟩ := g1 hlim'
      have hred : action (top (S' ++ S)) (look rest) = .reduce r := by
        have hr : it'.rule = r := by rw [hr', hr0]
        rw [← hr]
        exact item_reduce hi' (by rw [hd', hr']) hl' (look_lt rest)
      refine ⟨t, .inr ⟨lhs_nonterminal r, hg⟩, h1.trans (.head (c' := ⟨⟨t, r.lhs, v⟩ :: S, rest, ()⟩) ?_ (.refl _)), hit⟩
      rw [step_reduce h2 hred (by rw [h3]; exact hb) hg, push, if_pos hlim1]
    · intro hlim
      by_cases hlim' : S.length + depthSeq hs ≤ lim
      · obtain ⟨S', h1, h2, h3, it', hi', hr', hd', hl'⟩ := g1 hlim'
        have hred : action (top (S' ++ S)) (look rest) = .reduce r := by
          have hr : it'.rule = r := by rw [hr', hr0]
          rw [← hr]
          exact item_reduce hi' (by rw [hd', hr']) hl' (look_lt rest)
        refine Ends.steps h1 ⟨_, .refl _, ?_⟩
        rw [step_reduce h2 hred (by rw [h3]; exact hb) hg, push, if_neg]
        intro hlt
        have hge := Nat.max_le.mpr ⟨(show 1 ≤ lim - S.length by omega), (show depthSeq hs ≤ lim - S.length from by omega)⟩
        unfold depth at hlim
        omega
      · exact g2 (by omega)
theorem Ders.run {xs w vs hs} (hds : Ders leaf build xs w vs hs) (lim : Nat) (S : List (Entry V)) (rest : List Tok) (it : Item)
    (hi : it ∈ items (top S)) (hx : it.rule.rhs.drop it.dot = xs) (hacc : it.rule ≠ .accept)
    (hl : mem (look rest) it.look = true) (hS : S.length ≤ lim) :
    (S.length + depthSeq hs ≤ lim → ∃ S', Steps (builder leaf build) lim ⟨S, w ++ rest, ()⟩ ⟨S' ++ S, rest, ()⟩ ∧
      S'.length = xs.length ∧ S'.reverse.map (·.val) = vs ∧
      ∃ it' ∈ items (top (S' ++ S)), it'.rule = it.rule ∧ it'.dot = it.rule.rhs.length ∧ mem (look rest) it'.look = true) ∧
    (lim < S.length + depthSeq hs → Ends (builder leaf build) lim ⟨S, w ++ rest, ()⟩ (.exhausted ())) := by
  match hds with
  | .nil =>
    refine ⟨fun _ => ⟨[], .refl _, rfl, rfl, it, hi, rfl, ?_, hl⟩, fun h => ?_⟩
    · have h1 : it.rule.rhs.length ≤ it.dot := List.drop_eq_nil_iff.mp hx
      rcases Nat.eq_or_lt_of_le h1 with h2 | h2
      · exact h2.symm
      · exact absurd h2 (by
          have := List.all_eq_true.mp (allStates_iff dot_ok (items_lt hi)) _ hi
          have := Nat.le_of_ble_eq_true this
          omega)
    · simp [depthSeq] at h; omega
  | .cons (x := x) (xs := xs) (w := w1) (w' := w2) (v := v) (h := h) (hs := hs) hd hds =>
    obtain ⟨hx1, hx2⟩ := drop_succ_of hx
    have hlk : mem (look (w2 ++ rest)) (firstSeq (it.rule.rhs.drop (it.dot + 1)) it.look) = true := by
      rw [hx2]; exact hds.look hl
    obtain ⟨g1, g2⟩ := Der.run hd lim S (w2 ++ rest) it hi hx1 hacc hlk hS
    rw [List.append_assoc]
    have hdep : depthSeq (h :: hs) = max h (1 + depthSeq hs) := rfl
    rw [hdep]
    by_cases hlim : S.length + h ≤ lim
    · obtain ⟨t, htr, hst, it', hi', hr', hd', hsub⟩ := g1 hlim
      have hpos := hd.pos
      obtain ⟨k1, k2⟩ := Ders.run hds lim (⟨t, x, v⟩ :: S) rest it' hi' (by rw [hr', hd']; exact hx2) (by rw [hr']; exact hacc)
        (mem_of_sub hsub hl) (by simp; omega)
      simp only [List.length_cons] at k1 k2
      constructor
      · intro hlim2
        have := Nat.max_le.mp (show max h (1 + depthSeq hs) ≤ lim - S.length by omega)
        obtain ⟨S', h1, h2, h3, it2, h4, h5, h6, h7⟩ := k1 (by omega)
        refine ⟨S' ++ [⟨t, x, v⟩], hst.trans (by simpa using h1), by simp [h2], by simp [h3], it2, by simpa using h4, by rw [h5, hr'],
          by rw [h6, hr'], h7⟩
      · intro hlim2
        refine Ends.steps hst (k2 ?_)
        rcases Nat.lt_or_ge lim (S.length + 1 + depthSeq hs) with h' | h'
        · exact h'
        · have := Nat.max_le.mpr ⟨(show h ≤ lim - S.length by omega), (show 1 + depthSeq hs ≤ lim - S.length by omega)⟩
          omega
    · have := Nat.le_max_left h (1 + depthSeq hs)
      exact ⟨fun h' => absurd h' (by omega), fun _ => g2 (by omega)⟩
end

end Verif.Parse
