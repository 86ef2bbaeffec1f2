import Verif.Parse.Items
import Mathlib.Tactic.Common
/-
What the proofs need to know about the tables.  Each fact is checked by the kernel for all states,
items and symbols.
-/
namespace Verif.Parse

/-! ### Sets of terminals as bit masks -/

/-- Is the terminal in the set? -/
def mem (a l : Nat) : Bool := l.testBit a

/-- Is the first set contained in the second? -/
def sub (l m : Nat) : Bool := Nat.beq (l &&& m) l

theorem mem_of_sub {l m a : Nat} (h : sub l m = true) (ha : mem a l = true) : mem a m = true := by
  have h : l &&& m = l := Nat.eq_of_beq_eq_true h
  unfold mem at *
  rw [← h, Nat.testBit_and] at ha
  simp at ha
  exact ha.2

theorem mem_or {a l m : Nat} : mem a (l ||| m) = (mem a l || mem a m) := Nat.testBit_or ..

/-- The terminals that something derived from `β` and then an element of `l` can begin with. -/
def firstSeq : List Nat → Nat → Nat
  | [], l => l
  | a :: β, l => if nullable a then first a ||| firstSeq β l else first a

/-! ### States -/

def Bin.bound {α : Type} : Bin α → Nat
  | .nil => 0
  | .leaf _ => 1
  | .node l r => 2 * max l.bound r.bound

theorem Bin.get_bound {α : Type} : (t : Bin α) → (n : Nat) → (a : α) → t.get n = some a → n < t.bound
  | .nil, n, a, h => by simp [Bin.get] at h
  | .leaf _, n, a, h => by simp only [Bin.get] at h; split at h <;> simp_all [Bin.bound]
  | .node l r, n, a, h => by
    simp only [Bin.get] at h
    simp only [Bin.bound]
    split at h
    · have := Bin.get_bound l _ a h; omega
    · have := Bin.get_bound r _ a h; omega

def maxState : Nat := 256

theorem table_lt {s row} (h : table.get s = some row) : s < maxState :=
  Nat.lt_of_lt_of_le (Bin.get_bound _ _ _ h) (by decide +kernel)

theorem items_lt {s it} (h : it ∈ items s) : s < maxState := by
  unfold items at h
  cases h' : itemTable.get s with
  | none => rw [h'] at h; cases h
  | some l => exact Nat.lt_of_lt_of_le (Bin.get_bound _ _ _ h') (by decide +kernel)

/-- A property of all states. -/
def allStates (p : Nat → Bool) : Bool := (List.range maxState).all p

theorem allStates_iff {p} (h : allStates p = true) {s} (hs : s < maxState) : p s = true :=
  List.all_eq_true.mp h s (List.mem_range.mpr hs)

theorem mem_rules (r : Rule) : r ∈ rules := by cases r <;> decide

/-! ### Transitions -/

theorem lookup_mem {β : Type} {l : List (Nat × β)} {a : Nat} {b : β} (h : l.lookup a = some b) : (a, b) ∈ l := by
  induction l with
  | nil => cases h
  | cons x l ih =>
    obtain ⟨y, c⟩ := x
    simp only [List.lookup] at h
    split at h
    · rename_i he; simp at he; cases h; subst he; exact .head _
    · exact .tail _ (ih h)

theorem action_shift {s a t} (h : action s a = .shift t) : ∃ row, table.get s = some row ∧ (a, t) ∈ row.shift := by
  unfold action at h
  cases hr : table.get s with
  | none => rw [hr] at h; cases h
  | some row =>
    rw [hr] at h
    refine ⟨row, rfl, ?_⟩
    dsimp only at h
    split at h
    · cases h
    · split at h
      · rename_i h'; cases h; exact lookup_mem h'
      · split at h
        · cases h
        · split at h <;> cases h

theorem action_reduce {s a r} (h : action s a = .reduce r) :
    ∃ row, table.get s = some row ∧ (r ∈ row.reduce.map (·.2) ∨ row.default = some r) := by
  unfold action at h
  cases hr : table.get s with
  | none => rw [hr] at h; cases h
  | some row =>
    rw [hr] at h
    refine ⟨row, rfl, ?_⟩
    dsimp only at h
    split at h
    · cases h
    · split at h
      · cases h
      · split at h
        · rename_i h'; cases h; exact .inl (List.mem_map.mpr ⟨_, lookup_mem h', rfl⟩)
        · split at h
          · rename_i h'; cases h; exact .inr h'
          · cases h

theorem action_accept {s a} (h : action s a = .accept) : s = acceptState ∧ a = t_eof := by
  unfold action at h
  cases hr : table.get s with
  | none => rw [hr] at h; cases h
  | some row =>
    rw [hr] at h
    dsimp only at h
    split at h
    · assumption
    · split at h
      · cases h
      · split at h
        · cases h
        · split at h <;> cases h

theorem goto_some {s a t} (h : goto s a = some t) : ∃ row, table.get s = some row ∧ (a, t) ∈ row.goto := by
  unfold goto at h
  cases hr : table.get s with
  | none => rw [hr] at h; cases h
  | some row => rw [hr] at h; exact ⟨row, rfl, lookup_mem h⟩

/-- `t` is the state after state `s` and symbol `x`. -/
def Trans (s x t : Nat) : Prop := (x < numTerminals ∧ action s x = .shift t) ∨ (numTerminals ≤ x ∧ goto s x = some t)

/-- The transitions of a state. -/
def transitions (s : Nat) : List (Nat × Nat) :=
  match table.get s with
  | none => []
  | some row => row.shift ++ row.goto

theorem Trans.mem {s x t} (h : Trans s x t) : (x, t) ∈ transitions s ∧ s < maxState := by
  obtain ⟨-, h⟩ | ⟨-, h⟩ := h
  · obtain ⟨row, hr, hm⟩ := action_shift h
    simp [transitions, hr, hm, table_lt hr]
  · obtain ⟨row, hr, hm⟩ := goto_some h
    simp [transitions, hr, hm, table_lt hr]

/-- The reductions of a state. -/
def reductions (s : Nat) : List Rule :=
  match table.get s with
  | none => []
  | some row => row.reduce.map (·.2) ++ row.default.toList

theorem action_reduce_mem {s a r} (h : action s a = .reduce r) : r ∈ reductions s ∧ s < maxState := by
  obtain ⟨row, hr, hm⟩ := action_reduce h
  refine ⟨?_, table_lt hr⟩
  simp only [reductions, hr, List.mem_append]
  rcases hm with hm | hm
  · exact .inl hm
  · simp [hm]

/-! ### Completeness -/

/-- State `s` has the item, with at least the lookahead `l`. -/
def has (s : Nat) (r : Rule) (d l : Nat) : Bool :=
  (items s).any fun it => decide (it.rule = r) && Nat.beq it.dot d && sub l it.look

theorem has_iff {s r d l} (h : has s r d l = true) :
    ∃ it ∈ items s, it.rule = r ∧ it.dot = d ∧ sub l it.look = true := by
  obtain ⟨it, hm, h⟩ := List.any_eq_true.mp h
  simp only [Bool.and_eq_true, decide_eq_true_eq] at h
  exact ⟨it, hm, h.1.1, Nat.eq_of_beq_eq_true h.1.2, h.2⟩

/-- Everything an item needs for the parser to be complete. -/
def itemOk (s : Nat) (it : Item) : Bool :=
  match it.rule.rhs.drop it.dot with
  | [] => (List.range numTerminals).all fun a => !mem a it.look || decide (action s a = .reduce it.rule)
  | x :: β =>
    decide (it.rule = .accept ∧ it.dot = 1) ||
    (if x < numTerminals then
      match action s x with
      | .shift t => has t it.rule (it.dot + 1) it.look
      | _ => false
    else
      (match goto s x with
      | some t => has t it.rule (it.dot + 1) it.look
      | none => false) &&
      rules.all fun r => !Nat.beq r.lhs x || has s r 0 (firstSeq β it.look))

theorem items_ok : allStates (fun s => (items s).all (itemOk s)) = true := by decide +kernel

/-- The sets of terminals that symbols begin with. -/
theorem first_ok : rules.all (fun r => sub (firstSeq r.rhs 0) (first r.lhs) && (!r.rhs.all nullable || nullable r.lhs)) = true := by
  decide +kernel

/-! ### Soundness -/

/-- The items of the state after a transition were there before, with the dot before the symbol. -/
theorem back_ok : allStates (fun s => (transitions s).all fun (x, t) =>
    !Nat.beq t 0 && (items t).all fun it' => Nat.beq it'.dot 0 ||
      (items s).any fun it => decide (it.rule = it'.rule) && Nat.beq (it.dot + 1) it'.dot && decide (it.rule.rhs[it.dot]? = some x)) = true := by
  decide +kernel

/-- Reductions are of items that are complete. -/
theorem red_ok : allStates (fun s => (reductions s).all fun r => decide (r ≠ .accept) &&
    (items s).any fun it => decide (it.rule = r) && Nat.beq it.dot r.rhs.length) = true := by
  decide +kernel

/-- After the reduction of a production that begins in a state there is a next state. -/
theorem goto_ok : allStates (fun s => (items s).all fun it => !Nat.beq it.dot 0 ||
    (if it.rule = .accept then Nat.beq s 0 else (goto s it.rule.lhs).isSome)) = true := by
  decide +kernel

/-- The state in which END is accepted. -/
theorem accept_ok : (items acceptState).all (fun it => decide (it.rule = .accept ∧ it.dot = 1)) = true ∧ items acceptState ≠ [] := by
  constructor
  · decide +kernel
  · intro h
    have : (items acceptState).length ≠ 0 := by decide +kernel
    exact this (by rw [h]; rfl)

/-! ### Termination -/

def weights (l : List Nat) : Nat := (l.map weight).sum

theorem weight_ok : allStates (fun s => (reductions s).all fun r =>
    Nat.ble (weight r.lhs + 1) (weights r.rhs + bonus s)) = true := by
  decide +kernel

theorem bonus_ok : allStates (fun s => match table.get s with
    | none => true
    | some row => row.goto.all fun (_, t) => Nat.beq (bonus t) 0) = true := by
  decide +kernel

/-! ### Statements -/

/-- The terminals that a statement can begin with. -/
def stmtFirst : Nat := first n_stmt

/-- A statement is reduced before a token that cannot begin a statement, or else ends with a statement. -/
theorem stmt_ok : allStates (fun s => (List.range numTerminals).all fun a =>
    match action s a with
    | .reduce r => !Nat.beq r.lhs n_stmt || decide (r.rhs.getLast? = some n_stmt) || !mem a stmtFirst
    | _ => true) = true := by
  decide +kernel

end Verif.Parse
