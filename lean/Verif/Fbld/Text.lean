import Verif.Fbld.Model
/-!
# The text of markup (C52)
-/
namespace Verif.Fbld

/-- The buffer is large enough for its string, and for `capacity` more. -/
structure BufOk (b : TextBuf) : Prop where
  fits : b.str.length + 1 ≤ b.size
  cap : b.str.length + b.capacity ≤ b.size
  empty : b.str = [] → b.capacity = 0

/-- Appending to a buffer either works, or both strings are empty and the assertion fails. -/
theorem appendText_some {b : TextBuf} (hb : BufOk b) (s : Str) :
    (b.str = [] ∧ s = [] ∧ appendText (some b) s = .crash .assertion) ∨
      ((b.str ≠ [] ∨ s ≠ []) ∧ ∃ b', appendText (some b) s = .ok b' ∧ b'.str = b.str ++ s ∧ BufOk b') := by
  obtain ⟨str, size, cap⟩ := b
  obtain ⟨h1, h2, h3⟩ := hb
  simp only at h1 h2 h3
  by_cases he : str = [] ∧ s = []
  · obtain ⟨rfl, rfl⟩ := he
    have := h3 rfl
    subst this
    exact .inl ⟨rfl, rfl, by simp [appendText]⟩
  · right
    have hne : 0 < str.length + s.length := by
      by_cases hs : str = []
      · have : s ≠ [] := fun h => he ⟨hs, h⟩
        have := List.length_pos_iff.mpr this
        omega
      · have := List.length_pos_iff.mpr hs
        omega
    refine ⟨(Decidable.em (str = [])).elim (fun h => .inr fun h' => he ⟨h, h'⟩) .inl, ?_⟩
    have hc : str.length = 0 → cap = 0 := fun h => h3 (List.length_eq_zero_iff.mp h)
    have hE : ∀ {k : Nat}, str ++ s = [] → k = 0 := fun h => by
      have : str.length + s.length = 0 := by rw [← List.length_append, h]; rfl
      omega
    unfold appendText
    dsimp only
    by_cases h : cap ≤ s.length
    · rw [if_pos h, if_pos (show s.length < 2 * (str.length + s.length) - (str.length + cap) by omega),
        if_pos (show str.length + s.length + 1 ≤ 2 * (str.length + s.length) by omega)]
      exact ⟨_, rfl, rfl, by simp only [List.length_append]; omega, by simp only [List.length_append]; omega, hE⟩
    · rw [if_neg h, if_pos (show str.length + s.length + 1 ≤ size by omega)]
      exact ⟨_, rfl, rfl, by simp only [List.length_append]; omega, by simp only [List.length_append]; omega, hE⟩

/-! ### Trees as lists of parts -/

/-- A text, a command or a missing pointer. -/
inductive Part where
  | str (s : Str)
  | cmd
  | null

mutual
def tparts : Tree → List Part
  | .null => [.null]
  | .plain s => [.str s]
  | .cmd _ _ => [.cmd]
  | .seq ts => tpartsL ts
def tpartsL : List Tree → List Part
  | [] => []
  | t :: ts => tparts t ++ tpartsL ts
end

/-- `TextOfMarkup` on the list of parts. -/
def foldParts : List Part → Option TextBuf → CRes (Option TextBuf)
  | [], b => .ok b
  | .null :: _, _ => .silent
  | .cmd :: _, _ => .fail
  | .str s :: ps, b => match appendText b s with
    | .ok b => foldParts ps (some b)
    | .fail => .fail
    | .silent => .silent
    | .crash c => .crash c

theorem foldParts_append (ps qs : List Part) (b : Option TextBuf) :
    foldParts (ps ++ qs) b = match foldParts ps b with
      | .ok b => foldParts qs b
      | .fail => .fail
      | .silent => .silent
      | .crash c => .crash c := by
  induction ps generalizing b with
  | nil => rfl
  | cons p ps ih =>
    cases p with
    | str s =>
      simp only [List.cons_append, foldParts]
      cases appendText b s with
      | ok b' => exact ih _
      | fail => rfl
      | silent => rfl
      | crash c => rfl
    | cmd => rfl
    | null => rfl

mutual
theorem textOf_eq : (t : Tree) → (b : Option TextBuf) → textOf t b = foldParts (tparts t) b
  | .null, b => rfl
  | .plain s, b => by
    simp only [textOf, tparts, foldParts]
    cases appendText b s <;> rfl
  | .cmd _ _, b => rfl
  | .seq ts, b => by simp only [textOf, tparts]; exact textOfL_eq ts b
theorem textOfL_eq : (ts : List Tree) → (b : Option TextBuf) → textOfL ts b = foldParts (tpartsL ts) b
  | [], b => rfl
  | t :: ts, b => by
    simp only [textOfL, tpartsL]
    rw [foldParts_append, textOf_eq t b]
    cases foldParts (tparts t) b with
    | ok b' => exact textOfL_eq ts b'
    | fail => rfl
    | silent => rfl
    | crash c => rfl
end

/-- What `TextOfMarkup` computes once there is a string. -/
def catParts (acc : Str) : List Part → CRes Str
  | [] => .ok acc
  | .null :: _ => .silent
  | .cmd :: _ => .fail
  | .str s :: ps => if acc = [] ∧ s = [] then .crash .assertion else catParts (acc ++ s) ps

/-- The string of a buffer. -/
def CRes.str : CRes (Option TextBuf) → CRes (Option Str)
  | .ok b => .ok (b.map (·.str))
  | .fail => .fail
  | .silent => .silent
  | .crash c => .crash c

def CRes.map' {α β : Type} (f : α → β) : CRes α → CRes β
  | .ok b => .ok (f b)
  | .fail => .fail
  | .silent => .silent
  | .crash c => .crash c

theorem foldParts_some {b : TextBuf} (hb : BufOk b) (ps : List Part) : (foldParts ps (some b)).str = (catParts b.str ps).map' some := by
  induction ps generalizing b with
  | nil => rfl
  | cons p ps ih =>
    cases p with
    | cmd => rfl
    | null => rfl
    | str s =>
      rw [foldParts, catParts]
      rcases appendText_some hb s with ⟨h1, h2, h3⟩ | ⟨h1, b', h2, h3, h4⟩
      · rw [h3, if_pos ⟨h1, h2⟩]; rfl
      · rw [h2, if_neg (fun h => h1.elim (· h.1) (· h.2))]
        show (foldParts ps (some b')).str = _
        rw [ih h4, h3]

theorem foldParts_none (ps : List Part) : (foldParts ps none).str = match ps with
    | [] => .ok none
    | .null :: _ => .silent
    | .cmd :: _ => .fail
    | .str s :: ps => (catParts s ps).map' some := by
  cases ps with
  | nil => rfl
  | cons p ps =>
    cases p with
    | cmd => rfl
    | null => rfl
    | str s =>
      show (foldParts ps (some ⟨s, s.length + 1, 0⟩)).str = _
      exact foldParts_some ⟨Nat.le_refl _, Nat.le_succ _, fun _ => rfl⟩ ps

mutual
theorem locOk_of_empty : (t : Tree) → tparts t = [] → locOk t = true
  | .null, h => by simp [tparts] at h
  | .plain s, h => by simp [tparts] at h
  | .cmd _ _, h => by simp [tparts] at h
  | .seq ts, h => by simp only [locOk]; exact locOkL_of_empty ts (by simpa [tparts] using h)
theorem locOkL_of_empty : (ts : List Tree) → tpartsL ts = [] → locOkL ts = true
  | [], _ => rfl
  | t :: ts, h => by simp only [tpartsL, List.append_eq_nil_iff] at h; exact locOk_of_empty t h.1
end

/-- The result of `FbldTextOfMarkup` in terms of the parts of the tree. -/
theorem textOfMarkup_eq (t : Tree) : textOfMarkup t = match tparts t with
    | [] => .ok []
    | .null :: _ => .silent
    | .cmd :: _ => .fail
    | .str s :: ps => catParts s ps := by
  unfold textOfMarkup
  rw [textOf_eq]
  have h := foldParts_none (tparts t)
  cases hp : tparts t with
  | nil => simp [foldParts, locOk_of_empty t hp]
  | cons p ps =>
    rw [hp] at h
    cases p with
    | cmd => rfl
    | null => rfl
    | str s =>
      dsimp only at h ⊢
      cases hf : foldParts (.str s :: ps) none with
      | ok o =>
        rw [hf] at h
        cases o with
        | none => cases hc : catParts s ps <;> rw [hc] at h <;> simp [CRes.str, CRes.map'] at h
        | some b =>
          cases hc : catParts s ps <;> rw [hc] at h <;> simp [CRes.str, CRes.map'] at h
          simp [h]
      | fail => rw [hf] at h; cases hc : catParts s ps <;> rw [hc] at h <;> simp [CRes.str, CRes.map'] at h
      | silent => rw [hf] at h; cases hc : catParts s ps <;> rw [hc] at h <;> simp [CRes.str, CRes.map'] at h
      | crash c => rw [hf] at h; cases hc : catParts s ps <;> rw [hc] at h <;> simp [CRes.str, CRes.map'] at h; rw [h]

theorem catParts_crash (acc : Str) (ps : List Part) {c} (h : catParts acc ps = .crash c) : c = .assertion := by
  induction ps generalizing acc with
  | nil => simp [catParts] at h
  | cons p ps ih =>
    cases p with
    | cmd => simp [catParts] at h
    | null => simp [catParts] at h
    | str s =>
      rw [catParts] at h
      split at h
      · simpa using h.symm
      · exact ih _ h

/-- C52: whatever the markup (even if pointers are missing in it), nothing is written outside of the
buffer and no NULL pointer is followed. -/
theorem C52_in_bounds (t : Tree) : textOfMarkup t ≠ .crash .overflow ∧ textOfMarkup t ≠ .crash .nullDeref := by
  have key : ∀ c, textOfMarkup t = .crash c → c = .assertion := by
    intro c h
    rw [textOfMarkup_eq] at h
    split at h
    · simp at h
    · simp at h
    · simp at h
    · exact catParts_crash _ _ h
  exact ⟨fun h => (nomatch key _ h), fun h => (nomatch key _ h)⟩

/-! ### Markup -/

def toPart : Option Str → Part
  | some s => .str s
  | none => .cmd

mutual
theorem tparts_embed : (m : Markup) → tparts (embed m) = (parts m).map toPart
  | .plain s => rfl
  | .cmd _ _ => by simp [embed, tparts, parts, toPart]
  | .seq ms => by simp only [embed, tparts, parts]; exact tpartsL_embed ms
theorem tpartsL_embed : (ms : List Markup) → tpartsL (embedL ms) = (partsL ms).map toPart
  | [] => rfl
  | m :: ms => by simp only [embedL, tpartsL, partsL, List.map_append]; rw [tparts_embed m, tpartsL_embed ms]
end

/-- The characters and commands of a part. -/
def partItems : Option Str → List (Option Char)
  | some s => s.map some
  | none => [none]

mutual
theorem items_parts : (m : Markup) → items m = (parts m).flatMap partItems
  | .plain s => by simp [items, parts, partItems]
  | .cmd _ _ => by simp [items, parts, partItems]
  | .seq ms => by simp only [items, parts]; exact itemsL_parts ms
theorem itemsL_parts : (ms : List Markup) → itemsL ms = (partsL ms).flatMap partItems
  | [] => rfl
  | m :: ms => by simp only [itemsL, partsL, List.flatMap_append]; rw [items_parts m, itemsL_parts ms]
end

theorem mapM_some (s : Str) (l : List (Option Char)) : (s.map some ++ l).mapM id = (l.mapM id).map (s ++ ·) := by
  induction s with
  | nil => simp
  | cons c s ih =>
    simp only [List.map_cons, List.cons_append, List.mapM_cons, id, ih]
    cases l.mapM id <;> rfl

theorem catParts_eq (ps : List (Option Str)) : ∀ acc : Str, (acc ≠ [] ∨ ps.head? ≠ some (some [])) →
    catParts acc (ps.map toPart) = match (ps.flatMap partItems).mapM id with
      | some s => .ok (acc ++ s)
      | none => .fail := by
  induction ps with
  | nil => intro acc _; simp [catParts]
  | cons p ps ih =>
    intro acc h
    cases p with
    | none => simp [catParts, toPart, partItems]
    | some s =>
      have hne : ¬(acc = [] ∧ s = []) := fun ⟨h1, h2⟩ => by subst h1; subst h2; simp at h
      rw [List.map_cons, toPart, catParts, if_neg hne, ih (acc ++ s) (.inl fun h => hne (by simpa using h))]
      rw [List.flatMap_cons, partItems, mapM_some]
      cases (ps.flatMap partItems).mapM id <;> simp

/-- C52: if the first two plain texts are not both empty, the result is the concatenation of all
plain text, or failure because of a command. -/
theorem C52_text (m : Markup) (h : ∀ ps, parts m ≠ some [] :: some [] :: ps) :
    textOfMarkup (embed m) = match text m with
      | some s => .ok s
      | none => .fail := by
  rw [textOfMarkup_eq, tparts_embed, text, items_parts]
  cases hp : parts m with
  | nil => rfl
  | cons p ps =>
    cases p with
    | none => rfl
    | some s =>
      simp only [List.map_cons, toPart]
      rw [catParts_eq ps s, List.flatMap_cons, partItems, mapM_some]
      · cases (ps.flatMap partItems).mapM id <;> rfl
      · by_cases hs : s = []
        · right
          intro hh
          subst hs
          cases ps with
          | nil => simp at hh
          | cons q qs => simp at hh; subst hh; exact h qs hp
        · exact .inl hs

/-- C52: otherwise the program is stopped by its own assertion. -/
theorem C52_violated (m : Markup) (ps : List (Option Str)) (h : parts m = some [] :: some [] :: ps) :
    textOfMarkup (embed m) = .crash .assertion := by
  rw [textOfMarkup_eq, tparts_embed, h]
  simp [toPart, catParts]

/-- Both cases occur: `a` followed by nothing, and nothing twice. -/
example : (∀ ps, parts (.seq [.plain ['a'], .plain []]) ≠ some [] :: some [] :: ps) ∧
    textOfMarkup (embed (.seq [.plain ['a'], .plain []])) = .ok ['a'] ∧
    textOfMarkup (embed (.seq [.plain [], .plain []])) = .crash .assertion :=
  ⟨fun ps h => by simp [parts, partsL] at h, rfl, rfl⟩

/-! ### Printing -/

/-- The characters in front of the first command, and whether there is no command. -/
def untilCmd : List (Option Char) → Str × Bool
  | [] => ([], true)
  | some c :: l => (c :: (untilCmd l).1, (untilCmd l).2)
  | none :: _ => ([], false)

theorem untilCmd_append (l l' : List (Option Char)) : untilCmd (l ++ l') =
    if (untilCmd l).2 then ((untilCmd l).1 ++ (untilCmd l').1, (untilCmd l').2) else untilCmd l := by
  induction l with
  | nil => simp [untilCmd]
  | cons o l ih =>
    cases o with
    | none => simp [untilCmd]
    | some c =>
      simp only [List.cons_append, untilCmd, ih]
      by_cases h : (untilCmd l).2 = true
      · simp [h]
      · simp [h]

theorem untilCmd_some (s : Str) : untilCmd (s.map some) = (s, true) := by
  induction s with
  | nil => rfl
  | cons c s ih => simp [untilCmd, ih]

mutual
theorem printMarkup_eq : (m : Markup) → printMarkup (embed m) = some (untilCmd (items m))
  | .plain s => by simp [printMarkup, embed, items, untilCmd_some]
  | .cmd _ _ => by simp [printMarkup, embed, items, untilCmd]
  | .seq ms => by simp only [printMarkup, embed, items]; exact printMarkupL_eq ms
theorem printMarkupL_eq : (ms : List Markup) → printMarkupL (embedL ms) = some (untilCmd (itemsL ms))
  | [] => rfl
  | m :: ms => by
    simp only [printMarkupL, embedL, itemsL, untilCmd_append]
    rw [printMarkup_eq m, printMarkupL_eq ms]
    rcases hu : untilCmd (items m) with ⟨s, b⟩
    cases b <;> simp
end

/-- C52: `FbldPrintMarkup` prints the text in front of the first unevaluated command, and succeeds
exactly if there is none. -/
theorem C52_print (m : Markup) : printMarkup (embed m) = some (untilCmd (items m)) := printMarkup_eq m

/-- C52: markup without commands is printed completely. -/
theorem C52_print_text (m : Markup) (s : Str) (h : text m = some s) : printMarkup (embed m) = some (s, true) := by
  have : ∀ (l : List (Option Char)) (s : Str), l.mapM id = some s → untilCmd l = (s, true) := by
    intro l
    induction l with
    | nil => intro s h; simp at h; subst h; rfl
    | cons o l ih =>
      intro s h
      cases o with
      | none => simp at h
      | some c =>
        cases hl : l.mapM id with
        | none => simp [hl] at h
        | some r => simp [hl] at h; subst h; simp [untilCmd, ih r hl]
  rw [printMarkup_eq, this _ _ h]

end Verif.Fbld
