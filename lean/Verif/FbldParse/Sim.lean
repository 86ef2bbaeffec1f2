import Verif.FbldParse.Model
/-
Two lexers that cannot be told apart: the parser gives the same result with both.
-/
namespace Verif.FbldParse
open Fbld (Str Markup)

/-- The strings that the parser looks for. -/
def patterns : List Str := [['['], [']'], ['{'], ['}'], ['\n'], ['@'], ['\\'], [' '], [' ', '@', '\n'], [' ', '@', '@', '\n'], ['@', '@', '\n'], ['@', '\n'], ['@', ' '],
  ['@', '['], ['@', '{'], ['@', '@']]

/-- Looking at the input does not change the indent. -/
structure Lawful {σ : Type} (L : Lexer σ) : Prop where
  char : ∀ s, L.indent (L.char s).2 = L.indent s
  is : ∀ p s, L.indent (L.is p s).2 = L.indent s
  advance : ∀ s s', L.advance s = some s' → L.indent s' = L.indent s
  set : ∀ n s, L.indent (L.setIndent n s) = n

/-- Related states cannot be told apart. -/
structure Sim {σ τ : Type} (L : Lexer σ) (L' : Lexer τ) (R : σ → τ → Prop) : Prop where
  char : ∀ s t, R s t → (L.char s).1 = (L'.char t).1 ∧ R (L.char s).2 (L'.char t).2
  is : ∀ p ∈ patterns, ∀ s t, R s t → (L.is p s).1 = (L'.is p t).1 ∧ R (L.is p s).2 (L'.is p t).2
  advance : ∀ s t, R s t → (L.advance s = none ∧ L'.advance t = none) ∨ ∃ s' t', L.advance s = some s' ∧ L'.advance t = some t' ∧ R s' t'
  column : ∀ s t, R s t → (L.column s = 1 ↔ L'.column t = 1)
  deeper : ∀ s t, R s t → R (L.setIndent (L.indent s + 1) s) (L'.setIndent (L'.indent t + 1) t)
  shallower : ∀ s t, R s t → 0 < L.indent s → R (L.setIndent (L.indent s - 1) s) (L'.setIndent (L'.indent t - 1) t)

section
variable {σ τ : Type} {R : σ → τ → Prop} {L : Lexer σ} {L' : Lexer τ}

/-- The results are the same, the states after them related, and the indent is changed by a number. -/
inductive Same {α : Type} (L : Lexer σ) (R : σ → τ → Prop) (i : Nat) : PRes (α × σ) → PRes (α × τ) → Prop
  | ok {a s t} : R s t → L.indent s = i → Same L R i (.ok (a, s)) (.ok (a, t))
  | error : Same L R i .error .error
  | crash : Same L R i .crash .crash
  | more : Same L R i .more .more

/-- The two functions cannot be told apart, from an indent `i` to an indent `j`. -/
structure SameP {α : Type} (L : Lexer σ) (R : σ → τ → Prop) (i j : Nat) (m : P σ α) (m' : P τ α) : Prop where
  run : ∀ s t, R s t → L.indent s = i → Same L R j (m s) (m' t)

theorem SameP.bind {α β : Type} {i j k : Nat} {m : P σ α} {m' : P τ α} {f : α → P σ β} {f' : α → P τ β} (h : SameP L R i j m m') (hf : ∀ a, SameP L R j k (f a) (f' a)) :
    SameP L R i k (m >>= f) (m' >>= f') := by
  refine ⟨fun s t hR hi => ?_⟩
  have := h.run s t hR hi
  show Same L R k (P.bind m f s) (P.bind m' f' t)
  unfold P.bind
  cases hm : m s <;> cases hm' : m' t <;> rw [hm, hm'] at this <;> cases this
  · case ok.ok h1 h2 => exact (hf _).run _ _ h1 h2
  · exact .error
  · exact .crash
  · exact .more

theorem SameP.pure {α : Type} {i : Nat} {a : α} : SameP L R i i (Pure.pure a) (Pure.pure a) := ⟨fun _ _ hR hi => .ok hR hi⟩
theorem SameP.fail {α : Type} {i j : Nat} : SameP (α := α) L R i j FbldParse.fail FbldParse.fail := ⟨fun _ _ _ _ => .error⟩
theorem SameP.abort {α : Type} {i j : Nat} : SameP (α := α) L R i j FbldParse.abort FbldParse.abort := ⟨fun _ _ _ _ => .crash⟩
theorem SameP.more {α : Type} {i j : Nat} : SameP (α := α) L R i j FbldParse.more FbldParse.more := ⟨fun _ _ _ _ => .more⟩

section
variable (hl : Lawful L) (hs : Sim L L' R)
include hl hs

theorem same_char {i : Nat} : SameP L R i i (char L) (char L') := by
  refine ⟨fun s t hR hi => ?_⟩
  obtain ⟨h1, h2⟩ := hs.char s t hR
  show Same L R i (.ok (L.char s)) (.ok (L'.char t))
  have e : L.char s = ((L'.char t).1, (L.char s).2) := by rw [← h1]
  rw [e]
  exact .ok h2 (by rw [hl.char, hi])

theorem same_is {i : Nat} {p : Str} (hp : p ∈ patterns) : SameP L R i i (is L p) (is L' p) := by
  refine ⟨fun s t hR hi => ?_⟩
  obtain ⟨h1, h2⟩ := hs.is p hp s t hR
  show Same L R i (.ok (L.is p s)) (.ok (L'.is p t))
  have e : L.is p s = ((L'.is p t).1, (L.is p s).2) := by rw [← h1]
  rw [e]
  exact .ok h2 (by rw [hl.is, hi])

theorem same_isEnd {i : Nat} : SameP L R i i (isEnd L) (isEnd L') := (same_char hl hs).bind fun _ => .pure

theorem same_advance {i : Nat} : SameP L R i i (advance L) (advance L') := by
  refine ⟨fun s t hR hi => ?_⟩
  unfold advance
  rcases hs.advance s t hR with ⟨h1, h2⟩ | ⟨s', t', h1, h2, h3⟩ <;> rw [h1, h2]
  · exact .crash
  · exact .ok h3 (by rw [hl.advance _ _ h1, hi])

theorem same_deeper {i : Nat} : SameP L R i (i + 1) (deeper L) (deeper L') := ⟨fun s t hR hi => .ok (hs.deeper s t hR) (by rw [hl.set, hi])⟩

theorem same_shallower {i : Nat} : SameP L R (i + 1) i (shallower L) (shallower L') :=
  ⟨fun s t hR hi => .ok (hs.shallower s t hR (by omega)) (by rw [hl.set, hi]; rfl)⟩

/-- The column is only compared with 1. -/
theorem same_column {α : Type} {i j : Nat} {a b : P σ α} {a' b' : P τ α} (h : SameP L R i j a a') (g : SameP L R i j b b') :
    SameP L R i j (do if (← column L) = 1 then a else b) (do if (← column L') = 1 then a' else b') := by
  refine ⟨fun s t hR hi => ?_⟩
  show Same L R j ((if L.column s = 1 then a else b) s) ((if L'.column t = 1 then a' else b') t)
  have := hs.column s t hR
  by_cases hc : L.column s = 1
  · rw [if_pos hc, if_pos (this.mp hc)]; exact h.run s t hR hi
  · rw [if_neg hc, if_neg (fun hh => hc (this.mpr hh))]; exact g.run s t hR hi

syntax "same" "[" term,* "]" : tactic
macro_rules
  | `(tactic| same [$ts,*]) => do
    let ts := ts.getElems
    let mut alts : Array (Lean.TSyntax `tactic) := #[← `(tactic| exact SameP.pure), ← `(tactic| exact SameP.more), ← `(tactic| exact SameP.fail), ← `(tactic| exact SameP.abort)]
    for t in ts do alts := alts.push (← `(tactic| apply $t))
    alts := alts.push (← `(tactic| exact same_char hl hs))
    alts := alts.push (← `(tactic| exact same_is hl hs (by decide)))
    alts := alts.push (← `(tactic| exact same_isEnd hl hs))
    alts := alts.push (← `(tactic| exact same_advance hl hs))
    alts := alts.push (← `(tactic| exact same_deeper hl hs))
    alts := alts.push (← `(tactic| exact same_shallower hl hs))
    alts := alts.push (← `(tactic| apply same_column hl hs))
    alts := alts.push (← `(tactic| apply SameP.bind))
    alts := alts.push (← `(tactic| intro _))
    alts := alts.push (← `(tactic| split))
    `(tactic| repeat' first $[| $alts:tactic]*)

variable {i : Nat}

theorem same_name : (n : Nat) → (cs : Str) → SameP L R i i (nameLoop L n cs) (nameLoop L' n cs)
  | 0, _ => .more
  | n + 1, cs => by
    have ih := same_name n
    rw [nameLoop, nameLoop]
    same [ih]

theorem same_literal : (n k : Nat) → (cs : Str) → SameP L R i i (literalLoop L n k cs) (literalLoop L' n k cs)
  | 0, _, _ => .more
  | n + 1, k, cs => by
    have ih := same_literal n
    rw [literalLoop, literalLoop]
    same [ih]

theorem same_rest : (n : Nat) → (cs : Str) → SameP L R i i (restLoop L n cs) (restLoop L' n cs)
  | 0, _ => .more
  | n + 1, cs => by
    have ih := same_rest n
    rw [restLoop, restLoop]
    same [ih]

theorem same_skip : (n : Nat) → SameP L R i i (skipBlank L n) (skipBlank L' n)
  | 0 => .more
  | n + 1 => by
    have ih := same_skip n
    rw [skipBlank, skipBlank]
    same [ih]

theorem same_inlineEnd (c : Context) : SameP L R i i (inlineEnd L c) (inlineEnd L' c) := by
  cases c <;> unfold inlineEnd <;> same []

theorem same_inline : (n : Nat) → (∀ as, SameP L R i i (parseInlineArgs L n as) (parseInlineArgs L' n as)) ∧ SameP L R i i (parseInlineCommand L n) (parseInlineCommand L' n) ∧
    ∀ c ms cs, SameP L R i i (inlineLoop L n c ms cs) (inlineLoop L' n c ms cs)
  | 0 => ⟨fun _ => by rw [parseInlineArgs, parseInlineArgs]; exact .more, by rw [parseInlineCommand, parseInlineCommand]; exact .more,
      fun _ _ _ => by rw [inlineLoop, inlineLoop]; exact .more⟩
  | n + 1 => by
    obtain ⟨ih1, ih2, ih3⟩ := same_inline n
    refine ⟨fun as => ?_, ?_, fun c ms cs => ?_⟩
    · rw [parseInlineArgs, parseInlineArgs]
      same [ih1, ih3, (same_literal hl hs)]
    · rw [parseInlineCommand, parseInlineCommand]
      same [ih1, (same_name hl hs)]
    · rw [inlineLoop, inlineLoop]
      same [ih2, ih3, (same_inlineEnd hl hs)]

theorem same_block : (n : Nat) → ∀ i, (∀ as, SameP L R i i (commandLoop L n as) (commandLoop L' n as)) ∧ SameP L R i i (parseBlock L n) (parseBlock L' n) ∧
    ∀ ms, SameP L R i i (blockLoop L n ms) (blockLoop L' n ms)
  | 0, _ => ⟨fun _ => by rw [commandLoop, commandLoop]; exact .more, by rw [parseBlock, parseBlock]; exact .more, fun _ => by rw [blockLoop, blockLoop]; exact .more⟩
  | n + 1, i => by
    have ih1 := fun j => (same_block n j).1
    have ih2 := fun j => (same_block n j).2.1
    have ih3 := fun j => (same_block n j).2.2
    refine ⟨fun as => ?_, ?_, fun ms => ?_⟩
    · rw [commandLoop, commandLoop]
      same [ih1, ih2, ((same_inline hl hs n).1), ((same_inline hl hs n).2.2), (same_rest hl hs)]
    · rw [parseBlock, parseBlock]
      same [ih3, (same_skip hl hs)]
    · rw [blockLoop, blockLoop]
      same [ih1, ih3, ((same_inline hl hs n).2.2), (same_skip hl hs), (same_name hl hs)]

end
end

end Verif.FbldParse
