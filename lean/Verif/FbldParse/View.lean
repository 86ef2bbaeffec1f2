import Verif.FbldParse.Sim
/-
The input of the parser as a text: a lexer without files and buffers.
-/
namespace Verif.FbldParse
open Fbld (Str Markup)

/-- The rest of the text, the column of its first character and the indent. -/
structure View where
  rest : Str
  column : Nat
  indent : Nat

/-- The next character of the text, after the spaces of the indent, of which that many are missing, and
the number of the spaces. Text that is indented less is not seen. -/
def look : Nat → Str → Option (Nat × Char)
  | _, [] => none
  | 0, c :: _ => some (0, c)
  | k + 1, c :: cs => if c = ' ' then (look k cs).map fun x => (x.1 + 1, x.2) else if c = '\n' then some (0, '\n') else none

def View.look (v : View) : Option (Nat × Char) := FbldParse.look (v.indent + 1 - v.column) v.rest

/-- After the first `k` characters. -/
def View.skip (k : Nat) (v : View) : View := ⟨v.rest.drop k, columnAfter v.column (v.rest.take k), v.indent⟩

def View.is : Str → View → Bool
  | [], _ => true
  | p :: ps, v =>
    match v.look with
    | none => false
    | some (k, c) => p = c && View.is ps (v.skip (k + 1))

def View.lexer : Lexer View where
  char v := (match v.look with | none => END | some x => x.2, v)
  is p v := (v.is p, v)
  advance v := v.look.map fun x => v.skip (x.1 + 1)
  column := View.column
  indent := View.indent
  setIndent n v := { v with indent := n }

theorem View.lawful : Lawful View.lexer where
  char _ := rfl
  is _ _ := rfl
  advance v v' h := by
    simp only [View.lexer, Option.map_eq_some_iff] at h
    obtain ⟨x, -, rfl⟩ := h
    rfl
  set _ _ := rfl

/-! ### Facts about `look` -/

theorem look_some : {k : Nat} → {t : Str} → {j : Nat} → {c : Char} → look k t = some (j, c) → t = List.replicate j ' ' ++ c :: t.drop (j + 1) ∧ (c = '\n' ∨ k ≤ j) ∧ j ≤ k
  | _, [], _, _, h => by simp [look] at h
  | 0, c :: cs, j, d, h => by simp [look] at h; obtain ⟨rfl, rfl⟩ := h; simp
  | k + 1, c :: cs, j, d, h => by
    rw [look] at h
    split at h
    · rename_i hc
      simp only [Option.map_eq_some_iff, Prod.mk.injEq] at h
      obtain ⟨x, h1, rfl, rfl⟩ := h
      obtain ⟨g1, g2, g3⟩ := look_some h1
      refine ⟨?_, ?_, by omega⟩
      · rw [hc]
        simp only [List.replicate_succ, List.cons_append, List.drop_succ_cons, List.cons.injEq, true_and]
        exact g1
      · rcases g2 with g2 | g2
        · exact .inl g2
        · exact .inr (by omega)
    · split at h
      · cases h; simp_all
      · cases h

theorem columnAfter_append : (a b : Str) → (col : Nat) → columnAfter col (a ++ b) = columnAfter (columnAfter col a) b
  | [], _, _ => rfl
  | c :: a, b, col => by simp only [List.cons_append, columnAfter]; exact columnAfter_append a b _

theorem columnAfter_spaces : (j col : Nat) → columnAfter col (List.replicate j ' ') = col + j
  | 0, _ => rfl
  | j + 1, col => by
    simp only [List.replicate_succ, columnAfter]
    rw [if_neg (by decide), columnAfter_spaces]
    omega

/-- The column after the next character. -/
theorem skip_column {v : View} {k : Nat} {c : Char} (h : v.look = some (k, c)) : (v.skip (k + 1)).column = if c = '\n' then 1 else v.column + k + 1 := by
  obtain ⟨h1, -, -⟩ := look_some h
  unfold View.skip
  simp only
  have : v.rest.take (k + 1) = List.replicate k ' ' ++ [c] := by
    conv => lhs; rw [h1]
    rw [List.take_append]
    simp
  rw [this, columnAfter_append, columnAfter_spaces]
  rfl

theorem columnAfter_pos : (s : Str) → {col : Nat} → 1 ≤ col → 1 ≤ columnAfter col s
  | [], _, h => h
  | c :: s, col, h => by
    rw [columnAfter]
    apply columnAfter_pos s
    split <;> omega

end Verif.FbldParse
