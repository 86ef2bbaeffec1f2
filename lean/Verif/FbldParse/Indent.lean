import Verif.FbldParse.Total
/-
Indented text is parsed like the text itself.
-/
namespace Verif.FbldParse
open Fbld (Str Markup)

/-- `Indented true t t'`: every line of `t` has one more space at its start in `t'`; for an empty line this is
optional. With `false` the first line is without it. -/
inductive Indented : Bool → Str → Str → Prop
  | nil {b} : Indented b [] []
  | line {c t t'} : c ≠ '\n' → Indented false (c :: t) t' → Indented true (c :: t) (' ' :: t')
  | blank {t t'} : Indented true t t' → Indented true ('\n' :: t) ('\n' :: t')
  | blankSpace {t t'} : Indented true t t' → Indented true ('\n' :: t) (' ' :: '\n' :: t')
  | char {c t t'} : Indented (decide (c = '\n')) t t' → Indented false (c :: t) (c :: t')

/-- Text that does not belong to an indented block. -/
def Unindented (r : Str) : Prop := ∀ c cs, r = c :: cs → c ≠ ' ' ∧ c ≠ '\n'

variable {r : Str}

theorem unindented_look (h : Unindented r) (k : Nat) : look (k + 1) r = none := by
  cases r with
  | nil => rfl
  | cons c cs =>
    obtain ⟨h1, h2⟩ := h c cs rfl
    rw [look, if_neg h1, if_neg h2]

theorem EndsNl.tail {c : Char} {t : Str} (h : EndsNl (c :: t)) : (t = [] ∧ c = '\n') ∨ EndsNl t := by
  obtain ⟨s, hs⟩ := h
  cases s with
  | nil => cases hs; exact .inl ⟨rfl, rfl⟩
  | cons d s => cases hs; exact .inr ⟨s, rfl⟩

/-- Within a line the next character is the same. -/
theorem look_line : (k : Nat) → {t t' : Str} → Indented false t t' → EndsNl t →
    (look k t = none ∧ look k (t' ++ r) = none) ∨ ∃ j c t2, look k t = some (j, c) ∧ look k (t' ++ r) = some (j, c) ∧ Indented (decide (c = '\n')) (t.drop (j + 1)) t2 ∧ (t' ++ r).drop (j + 1) = t2 ++ r
  | k, [], _, _, he => by obtain ⟨s, hs⟩ := he; simp at hs
  | 0, c :: t, t', hi, _ => by
    cases hi with
    | @char _ _ t' hi => exact .inr ⟨0, c, t', rfl, rfl, hi, rfl⟩
  | k + 1, c :: t, _, hi, he => by
    cases hi with
    | @char _ _ t' hi =>
      rw [List.cons_append, look, look]
      by_cases hc : c = ' '
      · rw [if_pos hc, if_pos hc]
        have he' : EndsNl t := by
          rcases he.tail with ⟨_, h⟩ | h
          · rw [hc] at h; exact absurd h (by decide)
          · exact h
        rw [show decide (c = '\n') = false by rw [hc]; decide] at hi
        rcases look_line k hi he' with ⟨h1, h2⟩ | ⟨j, d, t2, h1, h2, h3, h4⟩
        · left; rw [h1, h2]; exact ⟨rfl, rfl⟩
        · right; rw [h1, h2]; exact ⟨j + 1, d, t2, rfl, rfl, h3, h4⟩
      · rw [if_neg hc, if_neg hc]
        split
        · rename_i hn
          right
          exact ⟨0, '\n', t', rfl, rfl, by rw [hn] at hi; exact hi, rfl⟩
        · left; exact ⟨rfl, rfl⟩

/-- The text, and the text indented and followed by other text, at an indent that is one more. -/
structure Shift (r : Str) (v v' : View) : Prop where
  text : ∃ t', Indented (decide (v.column = 1)) v.rest t' ∧ v'.rest = t' ++ r
  column : v'.column = if v.column = 1 then 1 else v.column + 1
  indent : v'.indent = v.indent + 1
  lines : (v.rest = [] ∧ v.column = 1) ∨ EndsNl v.rest
  pos : 1 ≤ v.column

theorem shift_look (hr : Unindented r) {v v' : View} (h : Shift r v v') :
    (v.look = none ∧ v'.look = none) ∨ ∃ k k' c, v.look = some (k, c) ∧ v'.look = some (k', c) ∧ Shift r (v.skip (k + 1)) (v'.skip (k' + 1)) := by
  obtain ⟨⟨t', hi, ht⟩, hc, hin, hl, hp⟩ := h
  have mk : ∀ k k' c t2, v.look = some (k, c) → v'.look = some (k', c) → Indented (decide (c = '\n')) (v.rest.drop (k + 1)) t2 → v'.rest.drop (k' + 1) = t2 ++ r →
      (c ≠ '\n' → v'.column + k' = v.column + k + 1) → Shift r (v.skip (k + 1)) (v'.skip (k' + 1)) := by
    intro k k' c t2 h1 h2 h3 h4 h5
    have c1 := skip_column h1
    have c2 := skip_column h2
    have hd : decide ((v.skip (k + 1)).column = 1) = decide (c = '\n') := by
      rw [c1]
      by_cases hn : c = '\n'
      · simp [hn]
      · simp [hn]; omega
    refine ⟨⟨t2, by rw [hd]; exact h3, h4⟩, ?_, hin, ?_, ?_⟩
    · rw [c1, c2]
      by_cases hn : c = '\n'
      · simp [hn]
      · have := h5 hn
        rw [if_neg hn, if_neg hn, if_neg (by omega)]
        omega
    · have hlen := look_len h1
      have he : EndsNl v.rest := by
        rcases hl with ⟨h0, _⟩ | h0
        · rw [h0] at hlen; simp at hlen
        · exact h0
      by_cases hk : k + 1 < v.rest.length
      · exact .inr (he.drop hk)
      · left
        have hdn : v.rest.drop (k + 1) = [] := by simp; omega
        refine ⟨hdn, ?_⟩
        rw [c1, if_pos]
        obtain ⟨g1, -, -⟩ := look_some h1
        rw [hdn] at g1
        obtain ⟨s, hs⟩ := he
        rw [hs] at g1
        have := congrArg List.getLast? g1
        simp at this
        exact this.symm
    · rw [c1]; split <;> omega
  unfold View.look
  by_cases h1 : v.column = 1
  · rw [h1] at hi hc
    simp only [if_true, decide_true] at hi hc
    rw [hc, h1, hin, ht, show v.indent + 1 + 1 - 1 = v.indent + 1 by omega, show v.indent + 1 - 1 = v.indent by omega]
    generalize hrest : v.rest = t at hi
    have look1 : v.look = look v.indent t := by unfold View.look; rw [h1, hrest]; rfl
    have look2 : v'.look = look (v.indent + 1) (t' ++ r) := by unfold View.look; rw [hin, hc, ht]; rfl
    have he : ∀ {c s}, t = c :: s → EndsNl (c :: s) := by
      intro c s hs
      rcases hl with ⟨h0, _⟩ | h0
      · rw [hrest, hs] at h0; cases h0
      · rwa [hrest, hs] at h0
    cases hi with
    | nil => left; exact ⟨by cases v.indent <;> rfl, unindented_look hr _⟩
    | @line c s s' hne hi =>
      rcases look_line (r := r) v.indent hi (he rfl) with ⟨g1, g2⟩ | ⟨j, d, t2, g1, g2, g3, g4⟩
      · left
        refine ⟨g1, ?_⟩
        rw [List.cons_append, look, if_pos rfl, g2]; rfl
      · right
        have g5 : look (v.indent + 1) ((' ' :: s') ++ r) = some (j + 1, d) := by rw [List.cons_append, look, if_pos rfl, g2]; rfl
        refine ⟨j, j + 1, d, g1, g5, mk j (j + 1) d t2 (look1.trans g1) (look2.trans g5) (by rw [hrest]; exact g3) ?_ fun _ => by omega⟩
        rw [ht]; exact g4
    | @blank s s' hi =>
      right
      have g1 : look v.indent ('\n' :: s) = some (0, '\n') := by cases v.indent <;> rfl
      have g5 : look (v.indent + 1) (('\n' :: s') ++ r) = some (0, '\n') := rfl
      exact ⟨0, 0, '\n', g1, g5, mk 0 0 '\n' s' (look1.trans g1) (look2.trans g5) (by rw [hrest]; exact hi) (by rw [ht]; rfl) (by simp)⟩
    | @blankSpace s s' hi =>
      right
      have g1 : ∀ q, look v.indent ('\n' :: q) = some (0, '\n') := by intro q; cases v.indent <;> rfl
      have g5 : look (v.indent + 1) ((' ' :: '\n' :: s') ++ r) = some (1, '\n') := by rw [List.cons_append, List.cons_append, look, if_pos rfl, g1]; rfl
      exact ⟨0, 1, '\n', g1 _, g5, mk 0 1 '\n' s' (look1.trans (g1 _)) (look2.trans g5) (by rw [hrest]; exact hi) (by rw [ht]; rfl) (by simp)⟩
  · have hi' : Indented false v.rest t' := by rwa [decide_eq_false h1] at hi
    rw [if_neg h1] at hc
    have hs : v'.indent + 1 - v'.column = v.indent + 1 - v.column := by omega
    have he : EndsNl v.rest := hl.resolve_left fun h => h1 h.2
    have look2 : v'.look = look (v.indent + 1 - v.column) (t' ++ r) := by unfold View.look; rw [hs, ht]
    rw [hs, ht]
    rcases look_line (r := r) (v.indent + 1 - v.column) hi' he with ⟨g1, g2⟩ | ⟨j, d, t2, g1, g2, g3, g4⟩
    · exact .inl ⟨g1, g2⟩
    · exact .inr ⟨j, j, d, g1, g2, mk j j d t2 g1 (look2.trans g2) g3 (by rw [ht]; exact g4) fun _ => by omega⟩

theorem shift_is (hr : Unindented r) : (p : Str) → {v v' : View} → Shift r v v' → v.is p = v'.is p
  | [], _, _, _ => rfl
  | p :: ps, v, v', h => by
    rw [View.is, View.is]
    rcases shift_look hr h with ⟨h1, h2⟩ | ⟨k, k', c, h1, h2, h3⟩
    · rw [h1, h2]
    · rw [h1, h2]
      simp only
      rw [shift_is hr ps h3]

theorem shift_sim (hr : Unindented r) : Sim View.lexer View.lexer (Shift r) where
  char v v' h := by
    refine ⟨?_, h⟩
    simp only [View.lexer]
    rcases shift_look hr h with ⟨h1, h2⟩ | ⟨k, k', c, h1, h2, h3⟩ <;> rw [h1, h2]
  is p _ v v' h := ⟨shift_is hr p h, h⟩
  advance v v' h := by
    simp only [View.lexer]
    rcases shift_look hr h with ⟨h1, h2⟩ | ⟨k, k', c, h1, h2, h3⟩ <;> rw [h1, h2]
    · exact .inl ⟨rfl, rfl⟩
    · exact .inr ⟨_, _, rfl, rfl, h3⟩
  column v v' h := by
    simp only [View.lexer]
    rw [h.column]
    by_cases hc : v.column = 1
    · rw [if_pos hc]; simp [hc]
    · rw [if_neg hc]; have := h.pos; constructor <;> intro _ <;> omega
  deeper v v' h := ⟨h.text, h.column, by simp only [View.lexer]; rw [h.indent], h.lines, h.pos⟩
  shallower v v' h hi := ⟨h.text, h.column, by simp only [View.lexer] at hi ⊢; rw [h.indent]; omega, h.lines, h.pos⟩

end Verif.FbldParse
