import Verif.Elab.Ran
import Verif.Elab.Named
/-
How a literal is split into letters.
-/
namespace Verif.Elab
open Types
open Compile (Var Tc Tcs Flds Brs)

/-- The best match among the names before. -/
def Best (word : List Char) (pre : List Name) (best : Nat × Nat) : Prop :=
  (∀ y ∈ pre, y.str <+: word → y.str.length ≤ best.1) ∧
  (best.1 = 0 ∨ ∃ x, pre[best.2]? = some x ∧ x.str.length = best.1 ∧ x.str <+: word ∧
    ∀ j < best.2, ∀ y, pre[j]? = some y → y.str <+: word → y.str.length < best.1)

theorem matchLoop_best {word : List Char} : (fs : List (Name × Ptr)) → (pre : List Name) → {best : Nat × Nat} → Best word pre best →
    Best word (pre ++ fs.map (·.1)) (matchLoop word fs pre.length best)
  | [], pre, best, h => by simpa [matchLoop] using h
  | (x, t) :: fs, pre, best, h => by
    simp only [matchLoop]
    have key : ∀ b', Best word (pre ++ [x]) b' → Best word (pre ++ (x :: fs.map (·.1))) (matchLoop word fs (pre.length + 1) b') := by
      intro b' hb
      have := matchLoop_best fs (pre ++ [x]) hb
      simpa using this
    simp only [List.map_cons]
    split
    · rename_i hc
      simp only [Bool.and_eq_true, decide_eq_true_eq, List.isPrefixOf_iff_prefix] at hc
      apply key
      refine ⟨?_, .inr ⟨x, by simp, rfl, hc.2, ?_⟩⟩
      · intro y hy hp
        simp only [List.mem_append, List.mem_singleton] at hy
        rcases hy with hy | rfl
        · have := h.1 y hy hp; simp only; omega
        · exact Nat.le_refl _
      · intro j hj y hy hp
        rw [List.getElem?_append_left hj] at hy
        have := h.1 y (List.mem_of_getElem? hy) hp
        simp only; omega
    · rename_i hc
      simp only [Bool.and_eq_true, decide_eq_true_eq, List.isPrefixOf_iff_prefix] at hc
      apply key
      refine ⟨?_, ?_⟩
      · intro y hy hp
        simp only [List.mem_append, List.mem_singleton] at hy
        rcases hy with hy | rfl
        · exact h.1 y hy hp
        · exact Nat.le_of_not_lt fun hl => hc ⟨hl, hp⟩
      · rcases h.2 with h0 | ⟨z, h1, h2, h3, h4⟩
        · exact .inl h0
        · refine .inr ⟨z, ?_, h2, h3, ?_⟩
          · rw [List.getElem?_append_left (List.getElem?_eq_some_iff.mp h1).1]; exact h1
          · intro j hj y hy hp
            have hlt := (List.getElem?_eq_some_iff.mp h1).1
            rw [List.getElem?_append_left (by omega)] at hy
            exact h4 j hj y hy hp

/-- What the loop over the fields finds. -/
theorem matchLoop_longest {word : List Char} {fields : List (Name × Ptr)} :
    let best := matchLoop word fields 0 (0, 0)
    (best.1 = 0 → ∀ y ∈ fields.map (·.1), y.str <+: word → y.str = []) ∧
    (best.1 ≠ 0 → ∃ x, Longest (fields.map (·.1)) word best.2 x ∧ x.str.length = best.1) := by
  intro best
  have hb : Best word (fields.map (·.1)) best := by
    have := matchLoop_best (word := word) fields [] (best := (0, 0)) ⟨by simp, .inl rfl⟩
    simpa using this
  constructor
  · intro h0 y hy hp
    have := hb.1 y hy hp
    exact List.length_eq_zero_iff.mp (by omega)
  · intro h0
    rcases hb.2 with h1 | ⟨x, h1, h2, h3, h4⟩
    · exact absurd h1 h0
    · refine ⟨x, ⟨h1, ?_, h3, ?_, ?_⟩, h2⟩
      · intro he; rw [he] at h2; exact h0 (by simpa using h2.symm)
      · intro y hy hp; rw [h2]; exact hb.1 y hy hp
      · intro j hj y hy hp; rw [h2]; exact h4 j hj y hy hp

section
variable {n : Nat} {unit : Ptr} {fields : List (Name × Ptr)}

/-- The letters that are found spell the word, and are of unit type. -/
theorem letters_spell : (k : Nat) → {word : List Char} → {s s' : S} → {ls : List Nat} → letters n unit fields k word s = .ok (s', some ls) →
    s' = s ∧ Spells (fields.map (·.1)) word ls ∧ ∀ l ∈ ls, ∃ x t, fields[l]? = some (x, t) ∧ fbleTypesEqual n s.heap unit t = .ok true
  | 0, word, s, s', ls, h => by
    unfold letters at h
    obtain ⟨rfl, h⟩ := TM.pure_ok.mp h
    split at h
    · rename_i hw
      cases h
      rw [List.isEmpty_iff] at hw
      subst hw
      exact ⟨rfl, .nil, by simp⟩
    · cases h
  | k + 1, word, s, s', ls, h => by
    unfold letters at h
    split at h
    · rename_i hw
      obtain ⟨rfl, h⟩ := TM.pure_ok.mp h
      cases h
      rw [List.isEmpty_iff] at hw
      subst hw
      exact ⟨rfl, .nil, by simp⟩
    · simp only at h
      split at h
      · cases (TM.pure_ok.mp h).2
      · rename_i h0
        obtain ⟨x, hx, hl⟩ := (matchLoop_longest (word := word) (fields := fields)).2 h0
        cases hf : fields[(matchLoop word fields 0 (0, 0)).2]? with
        | none => rw [hf] at h; exact (TM.crash_ok.mp h).elim
        | some f =>
          obtain ⟨y, t⟩ := f
          rw [hf] at h
          obtain ⟨eq, h1, h⟩ := TM.readH_bind.mp h
          cases eq with
          | false => cases (TM.pure_ok.mp h).2
          | true =>
            obtain ⟨s2, q, h2, h⟩ := TM.bind_ok.mp h
            cases q with
            | none => cases (TM.pure_ok.mp h).2
            | some q =>
              obtain ⟨rfl, h⟩ := TM.pure_ok.mp h
              cases h
              obtain ⟨rfl, h3, h4⟩ := letters_spell k h2
              refine ⟨rfl, ?_, ?_⟩
              · have hw : word = x.str ++ word.drop x.str.length := by
                  obtain ⟨r, hr⟩ := hx.isPrefix
                  rw [← hr]; simp
                rw [← hl] at h3
                rw [hw]
                exact .cons (by rw [← hw]; exact hx) h3
              · intro l hlm
                rcases List.mem_cons.mp hlm with rfl | hlm
                · exact ⟨y, t, hf, h1⟩
                · exact h4 l hlm

/-- If the letters are not found, then after some letters nothing matches, or what matches is not of
unit type. -/
theorem letters_none : (k : Nat) → {word : List Char} → word.length ≤ k → {s s' : S} → letters n unit fields k word s = .ok (s', none) →
    ∃ ls rest, SpellsTo (fields.map (·.1)) word ls rest ∧ rest ≠ [] ∧
      ((∀ y ∈ fields.map (·.1), y.str <+: rest → y.str = []) ∨
        ∃ i x t, Longest (fields.map (·.1)) rest i x ∧ fields[i]? = some (x, t) ∧ fbleTypesEqual n s.heap unit t = .ok false)
  | 0, word, hk, s, s', h => by
    unfold letters at h
    have : word = [] := List.length_eq_zero_iff.mp (by omega)
    subst this
    cases (TM.pure_ok.mp h).2
  | k + 1, word, hk, s, s', h => by
    unfold letters at h
    split at h
    · cases (TM.pure_ok.mp h).2
    · rename_i hw
      rw [List.isEmpty_iff] at hw
      simp only at h
      split at h
      · rename_i h0
        exact ⟨[], word, .nil, hw, .inl ((matchLoop_longest (word := word) (fields := fields)).1 h0)⟩
      · rename_i h0
        obtain ⟨x, hx, hl⟩ := (matchLoop_longest (word := word) (fields := fields)).2 h0
        cases hf : fields[(matchLoop word fields 0 (0, 0)).2]? with
        | none => rw [hf] at h; exact (TM.crash_ok.mp h).elim
        | some f =>
          obtain ⟨y, t⟩ := f
          have hyx : y = x := by
            have := hx.name
            rw [List.getElem?_map, hf] at this
            simpa using this
          subst hyx
          rw [hf] at h
          obtain ⟨eq, h1, h⟩ := TM.readH_bind.mp h
          cases eq with
          | false => exact ⟨[], word, .nil, hw, .inr ⟨_, y, t, hx, hf, h1⟩⟩
          | true =>
            obtain ⟨s2, q, h2, h⟩ := TM.bind_ok.mp h
            cases q with
            | some q => cases (TM.pure_ok.mp h).2
            | none =>
              obtain ⟨ls, rest, h3, h4, h5⟩ := letters_none k (by simp; omega) h2
              refine ⟨(matchLoop word fields 0 (0, 0)).2 :: ls, rest, ?_, h4, h5⟩
              have hw : word = y.str ++ word.drop y.str.length := by
                obtain ⟨r, hr⟩ := hx.isPrefix
                rw [← hr]; simp
              rw [← hl] at h3
              rw [hw]
              exact .cons (by rw [← hw]; exact hx) h3

/-- What spells a word is the word. -/
theorem SpellsTo.word {names : List Name} {w rest : List Char} {ls : List Nat} (h : SpellsTo names w ls rest) :
    w = (ls.map fun i => (names[i]?.map (·.str)).getD []).flatten ++ rest := by
  induction h with
  | nil => simp
  | cons hx _ ih =>
    simp only [List.map_cons, hx.name, Option.map_some, Option.getD_some, List.flatten_cons, List.append_assoc]
    rw [← ih]

/-- There is only one way to spell a word. -/
theorem SpellsTo.unique {names : List Name} {w : List Char} {ls ls' : List Nat} (h : SpellsTo names w ls []) (h' : SpellsTo names w ls' []) : ls = ls' := by
  generalize hr : ([] : List Char) = rest at h
  induction h generalizing ls' with
  | nil =>
    subst hr
    generalize hw : ([] : List Char) = w at h'
    cases h' with
    | nil => rfl
    | cons hx _ => exact absurd (List.append_eq_nil_iff.mp hw.symm).1 hx.nonempty
  | @cons w i x ls rest hx _ ih =>
    generalize hw : x.str ++ w = w0 at h'
    cases h' with
    | nil => exact absurd (List.append_eq_nil_iff.mp hw).1 hx.nonempty
    | @cons w' i' x' ls' _ hx' h2 =>
      rw [← hw] at hx'
      have h1 : x'.str.length ≤ x.str.length := hx.longest _ (List.mem_of_getElem? hx'.name) hx'.isPrefix
      have h3 : x.str.length ≤ x'.str.length := hx'.longest _ (List.mem_of_getElem? hx.name) hx.isPrefix
      have hii : i = i' := by
        rcases Nat.lt_trichotomy i i' with hlt | heq | hgt
        · have := hx'.first i hlt x hx.name hx.isPrefix; omega
        · exact heq
        · have := hx.first i' hgt x' hx'.name hx'.isPrefix; omega
      subst hii
      have hxx : x = x' := by
        have := hx.name
        rw [hx'.name] at this
        exact (Option.some.inj this).symm
      subst hxx
      rw [List.append_cancel_left hw] at ih
      rw [ih h2 hr]

end
end Verif.Elab
