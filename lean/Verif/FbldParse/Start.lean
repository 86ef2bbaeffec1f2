import Verif.FbldParse.Files
import Verif.FbldParse.Fuel
/-
The start of the parser: before the first file is open the column is 0.
-/
namespace Verif.FbldParse
open Fbld (Str Markup)

/-- The files whose last line is complete, without the character that stands for the end. -/
structure Complete (files : List Str) : Prop where
  ne : files ≠ []
  lines : ∀ f ∈ files, f = [] ∨ EndsNl f
  noEnd : ∀ f ∈ files, END ∉ f

def begin_ (files : List Str) : Lex := ⟨files, none, 0, 0, []⟩
def top (text : Str) : View := ⟨text, 1, 0⟩

variable {files : List Str}

theorem begin_reads (h : Complete files) : Reads ⟨files, none, 1, 0, []⟩ (top files.flatten) :=
  ⟨by simp [top], rfl, rfl, by simp only [top, List.mem_flatten, not_exists, not_and]; exact h.noEnd, .inl (by simp), h.lines⟩

/-- The first test for a blank line. -/
theorem begin_is (h : Complete files) : (lexIs ['\n'] (begin_ files) 0).1 = ((look 1 files.flatten).map (·.2) == some '\n') ∧ Reads (lexIs ['\n'] (begin_ files) 0).2 (top files.flatten) := by
  have e : fetchLoop 1 (begin_ files) 0 = fetchLoop 1 ⟨files, none, 1, 0, []⟩ 0 := by
    have : fetch (begin_ files) 0 = fetch ⟨files, none, 1, 0, []⟩ 0 := by
      unfold fetch getC begin_
      simp only [List.length_nil, if_true, List.isEmpty_nil]
      cases files with
      | nil => exact absurd rfl h.ne
      | cons f fs => cases f <;> rfl
    rw [fetchLoop.eq_def, fetchLoop.eq_def 1 ⟨files, none, 1, 0, []⟩]
    simp only [this]
  have f := fetchLoop_reads 1 _ 0 (begin_reads h) (Nat.le_refl _) (by simp)
  rw [← e] at f
  have hl : nextFetched (begin_ files) 0 = fetchLoop 1 (begin_ files) 0 := rfl
  have hd : (top files.flatten).rest.drop 0 = files.flatten := rfl
  simp only [lexIs, hl]
  cases hk : look 1 files.flatten with
  | none =>
    rw [f.none (by rw [hd]; exact hk)]
    exact ⟨rfl, f.reads⟩
  | some x =>
    obtain ⟨g1, g2, g3⟩ := f.some x.1 x.2 (by rw [hd]; exact hk)
    have := look_ne_end (v := top files.flatten) (i := 0) (begin_reads h).noEnd (k := 1) (j := x.1) (c := x.2) (by rw [hd]; exact hk)
    rw [g1, if_neg this]
    by_cases hx : x.2 = '\n'
    · rw [if_neg (by simp [hx])]
      simp only [hx, Option.map_some, BEq.rfl]
      exact ⟨trivial, f.reads⟩
    · rw [if_pos (fun hh => hx hh.symm)]
      refine ⟨?_, f.reads⟩
      simp [hx]

/-- Where the parser starts, after it has read one space more than it should if this is all of the first line. -/
def firstSkip (n : Nat) (text : Str) : PRes (Unit × View) :=
  match n, text with
  | 0, _ => .more
  | n + 1, ' ' :: '\n' :: r => skipBlank View.lexer n ⟨'\n' :: r, 2, 0⟩
  | n + 1, text => skipBlank View.lexer (n + 1) (top text)

theorem skipBlank_eq {σ : Type} (L : Lexer σ) (n : Nat) (s : σ) : skipBlank L (n + 1) s =
    if (L.is ['\n'] s).1 = true then (do advance L; skipBlank L n) (L.is ['\n'] s).2 else .ok ((), (L.is ['\n'] s).2) := by
  rw [skipBlank]
  show P.bind (is L ['\n']) _ s = _
  unfold P.bind is
  simp only
  split <;> rfl

theorem firstSkip_eq (n : Nat) (t : Str) : firstSkip (n + 1) t =
    if ((look 1 t).map (·.2) == some '\n') = true then (do advance View.lexer; skipBlank View.lexer n) (top t) else .ok ((), top t) := by
  by_cases hsp : ∃ r, t = ' ' :: '\n' :: r
  · obtain ⟨r, rfl⟩ := hsp
    rfl
  · have hs : firstSkip (n + 1) t = skipBlank View.lexer (n + 1) (top t) := by
      unfold firstSkip
      split
      · rename_i hm; cases hm
      · rename_i r _; exact absurd ⟨r, rfl⟩ hsp
      · rename_i hm _; cases hm; rfl
    rw [hs, skipBlank_eq]
    have : (View.lexer.is ['\n'] (top t)) = (((look 1 t).map (·.2) == some '\n'), top t) := by
      show ((top t).is ['\n'], top t) = _
      congr 1
      cases t with
      | nil => rfl
      | cons c t =>
        by_cases hc : c = ' '
        · subst hc
          cases t with
          | nil => rfl
          | cons d t =>
            have hd : d ≠ '\n' := fun hd => hsp ⟨t, by rw [hd]⟩
            simp [top, View.is, View.look, look, hd]
        · by_cases hd : c = '\n'
          · rw [hd]; rfl
          · have : ('\n' = c) = False := by simp [Ne.symm hd]
            simp [top, View.is, View.look, look, hc, hd, this]
    rw [this]

theorem begin_skip (h : Complete files) (n : Nat) : Same Lex.lexer Reads 0 (skipBlank Lex.lexer n (begin_ files)) (firstSkip n files.flatten) := by
  cases n with
  | zero => exact .more
  | succ n =>
    obtain ⟨h1, h2⟩ := begin_is h
    have hs := fun l v => (same_skip Lex.lawful reads_sim (i := 0) n).run l v
    have hadv : ∀ l, Reads l (top files.flatten) → l.indent = 0 → Same Lex.lexer Reads 0 ((do advance Lex.lexer; skipBlank Lex.lexer n) l) ((do advance View.lexer; skipBlank View.lexer n) (top files.flatten)) := by
      intro l hr hi
      exact ((same_advance Lex.lawful reads_sim).bind fun _ => same_skip Lex.lawful reads_sim n).run l _ hr hi
    have hi : (lexIs ['\n'] (begin_ files) 0).2.indent = 0 := lexIs_indent _ _ _
    have e : skipBlank Lex.lexer (n + 1) (begin_ files) =
        if ((look 1 files.flatten).map (·.2) == some '\n') = true then (do advance Lex.lexer; skipBlank Lex.lexer n) (lexIs ['\n'] (begin_ files) 0).2
        else .ok ((), (lexIs ['\n'] (begin_ files) 0).2) := by
      rw [skipBlank_eq]
      show (if (lexIs ['\n'] (begin_ files) 0).1 = true then _ else _) = _
      rw [h1]
      rfl
    rw [e]
    rw [firstSkip_eq]
    split
    · exact hadv _ h2 hi
    · exact .ok h2 hi

/-- The parser on a text. -/
def parseText (n : Nat) (text : Str) : PRes Markup :=
  match n with
  | 0 => .more
  | n + 1 => match firstSkip n text with
    | .ok (_, v) => (blockLoop View.lexer n [] v).value
    | .error => .error
    | .crash => .crash
    | .more => .more

theorem Same.value {σ τ α : Type} {L : Lexer σ} {R : σ → τ → Prop} {i : Nat} {x : PRes (α × σ)} {y : PRes (α × τ)} (h : Same L R i x y) : x.value = y.value := by
  cases h <;> rfl

/-- The parser reads its files as one text. -/
theorem fbldParse_text (h : Complete files) (n : Nat) : fbldParse n files = parseText n files.flatten := by
  unfold fbldParse parseText
  cases n with
  | zero => rw [parseBlock]; rfl
  | succ n =>
    rw [parseBlock]
    have hs := begin_skip h n
    show (P.bind (skipBlank Lex.lexer n) _ (begin_ files)).value = _
    unfold P.bind
    simp only
    cases hx : skipBlank Lex.lexer n (begin_ files) <;> cases hy : firstSkip n files.flatten <;> rw [hx, hy] at hs <;> cases hs
    · case ok.ok h1 h2 => exact (((same_block Lex.lawful reads_sim n 0).2.2 []).run _ _ h1 h2).value
    all_goals rfl

theorem parseText_top {n : Nat} {text : Str} (h : ∀ r, text ≠ ' ' :: '\n' :: r) : parseText n text = (parseBlock View.lexer n (top text)).value := by
  unfold parseText
  cases n with
  | zero => rw [parseBlock]; rfl
  | succ n =>
    rw [parseBlock]
    show _ = (P.bind (skipBlank View.lexer n) _ (top text)).value
    unfold P.bind
    have : firstSkip n text = skipBlank View.lexer n (top text) := by
      unfold firstSkip
      split
      · rfl
      · rename_i r; exact absurd rfl (h r)
      · rfl
    simp only [this]
    cases skipBlank View.lexer n (top text) <;> rfl

end Verif.FbldParse
