import Verif.Text.Spec
import Mathlib.Tactic.Common
namespace Verif.Text
open Spec

theorem isSpace_iff (b : Byte) : isSpace b = true ↔ White b := by
  simp only [isSpace, White, Bool.or_eq_true, decide_eq_true_eq, List.mem_cons, List.not_mem_nil, or_false]
  have : ch ' ' = 32 := rfl
  have : ch '\t' = 9 := rfl
  have : ch '\n' = 10 := rfl
  simp [*]
  tauto

theorem isPunct_iff (b : Byte) : isPunct b = true ↔ (Punct b ∨ b = 0) := by
  simp only [isPunct, Punct, punctuation, Bool.or_eq_true, List.contains_iff_mem, decide_eq_true_eq]

theorem isWordChar_iff (b : Byte) : isWordChar b = true ↔ WordChar b := by
  have h1 := isSpace_iff b
  have h2 := isPunct_iff b
  simp only [isWordChar, WordChar, Bool.not_eq_true', Bool.or_eq_false_iff, decide_eq_false_iff_not]
  rw [← Bool.not_eq_true, ← Bool.not_eq_true, h1, h2]
  tauto

/-- The lexer `l` is at offset `k` of the text `s`. -/
structure At (s : Str) (k : Nat) (l : Lex) : Prop where
  str : l.fromStr = true → (0xFF : Byte) ∉ s
  le : k ≤ s.length
  c : l.c = s[k]?
  rest : l.rest = s.drop (k + 1)
  line : l.line = lineOf s k
  col : l.col = colOf s k

theorem At.drop_some {s k l b} (h : At s k l) (hc : l.c = some b) :
    k < s.length ∧ s[k]? = some b ∧ s.drop k = b :: s.drop (k + 1) := by
  have h1 := h.c
  rw [hc] at h1
  have : k < s.length := by
    by_contra hge
    rw [List.getElem?_eq_none (by omega)] at h1
    cases h1
  refine ⟨this, h1.symm, ?_⟩
  rw [List.drop_eq_getElem_cons this]
  rw [List.getElem?_eq_getElem this] at h1
  simp at h1
  rw [← h1]

theorem At.drop_none {s k l} (h : At s k l) (hc : l.c = none) : k = s.length ∧ s.drop k = [] := by
  have h1 := h.c
  rw [hc] at h1
  have := List.getElem?_eq_none_iff.mp h1.symm
  have h2 := h.le
  have : k = s.length := by omega
  subst this
  simp

theorem At.read {s k l b} (h : At s k l) (hc : l.c = some b) : At s (k + 1) (readNextChar l) := by
  obtain ⟨hk, hb, hd⟩ := h.drop_some hc
  have htake : s.take (k + 1) = s.take k ++ [b] := by
    rw [List.take_add_one, hb]; rfl
  have hline : lineOf s (k + 1) = if b = ch '\n' then lineOf s k + 1 else lineOf s k := by
    simp only [lineOf, htake, List.count_append, List.count_singleton]
    split <;> (simp_all; try omega)
  have hcol : colOf s (k + 1) = if b = ch '\n' then 1 else colOf s k + 1 := by
    simp only [colOf, htake, List.reverse_append, List.reverse_singleton, List.singleton_append,
      List.takeWhile_cons]
    by_cases hb' : b = ch '\n'
    · simp [hb']
    · simp [hb']; omega
  have hstr := h.str
  have hr := h.rest
  have hl := h.line
  have hc' := h.col
  cases l with | mk c line col rest fs =>
  simp only at hc hr hl hc' hstr
  subst hc hr hl hc'
  have hnext : nextChar fs (s.drop (k + 1)) = (s[k+1]?, s.drop (k + 1 + 1)) := by
    cases hd2 : s.drop (k + 1) with
    | nil =>
      have : s.length ≤ k + 1 := List.drop_eq_nil_iff.mp hd2
      rw [List.getElem?_eq_none this]
      simp [nextChar]
      omega
    | cons b' r =>
      have hlt : k + 1 < s.length := by
        by_contra hge
        rw [List.drop_eq_nil_iff.mpr (by omega)] at hd2
        cases hd2
      rw [List.drop_eq_getElem_cons hlt] at hd2
      injection hd2 with h1 h2
      have : (fs && decide (b' = 0xFF)) = false := by
        rw [Bool.and_eq_false_iff]
        cases hfs : fs with
        | false => simp
        | true =>
          right
          simp only [decide_eq_false_iff_not]
          rintro rfl
          exact hstr hfs (h1 ▸ List.getElem_mem hlt)
      rw [List.getElem?_eq_getElem hlt]
      simp [nextChar, this, h1, h2]
  refine ⟨?_, by omega, ?_, ?_, ?_, ?_⟩
  · intro hf
    apply hstr
    revert hf
    simp only [readNextChar]
    split <;> simp
  all_goals
    simp only [readNextChar, hnext, hline, hcol]
    by_cases hb' : b = ch '\n' <;> simp [hb']

theorem At.read_eof {s k l} (h : At s k l) (hc : l.c = none) : readNextChar l = l := by
  obtain ⟨hk, hd⟩ := h.drop_none hc
  have hr := h.rest
  rw [List.drop_eq_nil_iff.mpr (by omega)] at hr
  cases l with | mk c line col rest fs =>
  simp only at hc hr
  subst hc hr
  simp [readNextChar, nextChar]

/-- Before the first character. -/
def Init (s : Str) (l : Lex) : Prop :=
  ∃ fs, l = initLex fs s ∧ (fs = true → (0xFF : Byte) ∉ s)

theorem Init.read {s l} (h : Init s l) : At s 0 (readNextChar l) := by
  obtain ⟨fs, rfl, hfs⟩ := h
  have hsp : ch ' ' ≠ ch '\n' := by decide
  refine ⟨?_, by omega, ?_, ?_, ?_, ?_⟩
  · simp [readNextChar, initLex, hsp]; exact fun h => hfs h
  all_goals
    cases s with
    | nil => simp [readNextChar, nextChar, initLex, hsp, lineOf, colOf]
    | cons b r =>
      have : (fs && decide (b = 0xFF)) = false := by
        rw [Bool.and_eq_false_iff]
        cases hf : fs with
        | false => simp
        | true =>
          right
          simp only [decide_eq_false_iff_not]
          rintro rfl
          exact hfs hf (by simp)
      simp [readNextChar, nextChar, initLex, hsp, lineOf, colOf, this]

theorem readTo_at (q : Byte) (l : Lex) : ∀ {s k}, At s k l →
    ∃ j, k ≤ j ∧ At s j (readTo q l).2 ∧ s.drop k = (readTo q l).1 ++ s.drop j ∧
      q ∉ (readTo q l).1 ∧ (∀ b ∈ (s.drop j).head?, b = q) ∧
      (∀ b, (readTo q l).2.c = some b → b = q) := by
  fun_induction readTo q l with
  | case1 l hc =>
    intro s k h
    have := h.drop_none hc
    exact ⟨k, Nat.le_refl _, h, by simp, by simp, by simp [this.2], by simp [hc]⟩
  | case2 l hc =>
    intro s k h
    have := h.drop_some hc
    exact ⟨k, Nat.le_refl _, h, by simp, by simp, by simp [this.2.2], by simp [hc]⟩
  | case3 l b hc hb w l' heq ih =>
    intro s k h
    obtain ⟨j, h1, h2, h3, h4, h5, h6⟩ := ih (h.read hc)
    rw [heq] at h2 h3 h4 h6
    have := h.drop_some hc
    refine ⟨j, by omega, h2, ?_, ?_, h5, h6⟩
    · rw [this.2.2, h3]; rfl
    · simp only [List.mem_cons, not_or]; exact ⟨fun e => hb e.symm, h4⟩

theorem skip_at (l : Lex) : ∀ {s k}, At s k l →
    ∃ j, k ≤ j ∧ At s j (skip l) ∧ Blank (s.drop k) (s.drop j) ∧
      ∀ b, (skip l).c = some b → isSpace b = false ∧ b ≠ ch '#' := by
  fun_induction skip l with
  | case1 l hc =>
    intro s k h
    have := h.drop_none hc
    exact ⟨k, Nat.le_refl _, h, .done (by simp [this.2]), by simp [hc]⟩
  | case2 l b hc hb ih =>
    intro s k h
    obtain ⟨j, h1, h2, h3, h4⟩ := ih (h.read hc)
    have := h.drop_some hc
    refine ⟨j, by omega, h2, ?_, h4⟩
    rw [this.2.2]
    exact .space ((isSpace_iff b).mp hb) h3
  | case3 l hc hb ih =>
    intro s k h
    obtain ⟨i, g1, g2, g3, g4, g5, g6⟩ := readTo_at (ch '\n') _ (h.read hc)
    obtain ⟨j, h1, h2, h3, h4⟩ := ih g2
    have := h.drop_some hc
    refine ⟨j, by omega, h2, ?_, h4⟩
    rw [this.2.2, g3]
    exact .comment g4 g5 h3
  | case4 l b hc hb hb' =>
    intro s k h
    have := h.drop_some hc
    have hw : ¬ White b := fun e => hb ((isSpace_iff b).mpr e)
    refine ⟨k, Nat.le_refl _, h, .done ?_, ?_⟩
    · rw [this.2.2]
      rintro b' ⟨⟩
      exact ⟨hw, hb'⟩
    · rw [hc]
      rintro b' ⟨⟩
      exact ⟨by simpa using hb, hb'⟩

theorem skip_init {s l} (h : Init s l) : skip l = skip (readNextChar l) := by
  obtain ⟨fs, rfl, hfs⟩ := h
  rw [skip]
  simp [initLex]
  intro h
  exact absurd h (by decide)

theorem doubled_of_not_mem {w : Str} (h : ch '\'' ∉ w) : Doubled w w := by
  induction w with
  | nil => exact .nil
  | cons b w ih =>
    simp only [List.mem_cons, not_or] at h
    exact .other (fun e => h.1 e.symm) (ih h.2)

theorem doubled_append {w d w' d' : Str} (h : Doubled w d) (h' : Doubled w' d') :
    Doubled (w ++ w') (d ++ d') := by
  induction h with
  | nil => exact h'
  | quote _ ih => exact .quote ih
  | other hb _ ih => exact .other hb ih

theorem readQuoted_at (l : Lex) (hq : l.c = some (ch '\'')) : ∀ {s k}, At s k l →
    ∃ j, k < j ∧ At s j (readQuoted l hq).2 ∧
      ((∃ d, Doubled (readQuoted l hq).1 d ∧
         s.drop k = ch '\'' :: (d ++ ch '\'' :: s.drop j) ∧ ∀ b ∈ (s.drop j).head?, b ≠ ch '\'') ∨
       (∃ d, Doubled (readQuoted l hq).1 d ∧ s.drop k = ch '\'' :: d ∧ s.drop j = [])) := by
  fun_induction readQuoted l hq with
  | case1 l hq =>
    rename_i r l' hc r' ih
    intro s k h
    obtain ⟨i, g1, g2, g3, g4, g5, g6⟩ := readTo_at (ch '\'') _ (h.read hq)
    change At s i r.2 at g2
    have hsome : ∃ b, r.2.c = some b := by
      cases hrc : r.2.c with
      | some b => exact ⟨b, rfl⟩
      | none =>
        have : l' = r.2 := g2.read_eof hrc
        rw [this, hrc] at hc
        cases hc
    obtain ⟨b, hb⟩ := hsome
    have hbq := g6 b hb
    subst hbq
    have hdi := g2.drop_some hb
    have hat : At s (i + 1) l' := g2.read hb
    obtain ⟨j, h1, h2, h3⟩ := ih hat
    have hd0 := h.drop_some hq
    have hr1 : Doubled r.1 r.1 := doubled_of_not_mem g4
    refine ⟨j, by omega, h2, ?_⟩
    rcases h3 with ⟨d, h3, h4, h5⟩ | ⟨d, h3, h4, h5⟩
    · left
      refine ⟨r.1 ++ ch '\'' :: ch '\'' :: d, doubled_append hr1 (.quote h3), ?_, h5⟩
      rw [hd0.2.2, g3, hdi.2.2, h4]
      simp [r]
    · right
      refine ⟨r.1 ++ ch '\'' :: ch '\'' :: d, doubled_append hr1 (.quote h3), ?_, h5⟩
      rw [hd0.2.2, g3, hdi.2.2, h4]
  | case2 l hq =>
    rename_i r l' hc
    intro s k h
    obtain ⟨i, g1, g2, g3, g4, g5, g6⟩ := readTo_at (ch '\'') _ (h.read hq)
    change At s i r.2 at g2
    have hd0 := h.drop_some hq
    have hr1 : Doubled r.1 r.1 := doubled_of_not_mem g4
    cases hrc : r.2.c with
    | none =>
      have hl' : l' = r.2 := g2.read_eof hrc
      have := g2.drop_none hrc
      refine ⟨i, by omega, hl' ▸ g2, .inr ⟨r.1, hr1, ?_, this.2⟩⟩
      rw [hd0.2.2, g3, this.2, List.append_nil]
    | some b =>
      have hbq := g6 b hrc
      subst hbq
      have hdi := g2.drop_some hrc
      have hat : At s (i + 1) l' := g2.read hrc
      refine ⟨i + 1, by omega, hat, .inl ⟨r.1, hr1, ?_, ?_⟩⟩
      · rw [hd0.2.2, g3, hdi.2.2]
      · intro b' hb'
        rw [List.head?_drop, ← hat.c] at hb'
        rintro rfl
        exact hc hb'

theorem readWord_at (l : Lex) : ∀ {s k}, At s k l →
    ∃ j, k ≤ j ∧ At s j (readWord l).2 ∧ s.drop k = (readWord l).1 ++ s.drop j ∧
      (∀ b ∈ (readWord l).1, WordChar b) ∧ (∀ b ∈ (s.drop j).head?, ¬ WordChar b) := by
  fun_induction readWord l with
  | case1 l hc =>
    intro s k h
    have := h.drop_none hc
    exact ⟨k, Nat.le_refl _, h, by simp, by simp, by simp [this.2]⟩
  | case2 l b hc hb w l' heq ih =>
    intro s k h
    obtain ⟨j, h1, h2, h3, h4, h5⟩ := ih (h.read hc)
    rw [heq] at h2 h3 h4
    have := h.drop_some hc
    refine ⟨j, by omega, h2, ?_, ?_, h5⟩
    · rw [this.2.2, h3]; rfl
    · simp only [List.mem_cons, forall_eq_or_imp]
      exact ⟨(isWordChar_iff b).mp hb, h4⟩
  | case3 l b hc hb =>
    intro s k h
    have := h.drop_some hc
    refine ⟨k, Nat.le_refl _, h, by simp, by simp, ?_⟩
    rw [this.2.2]
    rintro b' ⟨⟩
    exact fun e => hb ((isWordChar_iff b).mpr e)

/-- What yylex does after skipping. -/
def lexTok (l : Lex) : Token × Nat × Nat × Lex :=
  match h : l.c with
  | none => (.end_, l.line, l.col, l)
  | some b =>
    if isPunct b then ((if b = 0 then .end_ else .punct b), l.line, l.col, readNextChar l)
    else if hb : b = ch '\'' then
      let (w, l') := readQuoted l (by rw [h, hb])
      (.word w, l.line, l.col, l')
    else
      let (w, l') := readWord l
      (.word w, l.line, l.col, l')

theorem yylex_eq (l : Lex) : yylex l = lexTok (skip l) := rfl

theorem lexTok_at (l : Lex) {s k} (h : At s k l)
    (hsk : ∀ b, l.c = some b → isSpace b = false ∧ b ≠ ch '#') :
    ∃ j, k ≤ j ∧ At s j (lexTok l).2.2.2 ∧ Lexeme (s.drop k) (lexTok l).1 (s.drop j) ∧
      (lexTok l).2.1 = lineOf s k ∧ (lexTok l).2.2.1 = colOf s k ∧
      ((lexTok l).1 ≠ .end_ → k < j) := by
  unfold lexTok
  split
  · rename_i hc
    have := h.drop_none hc
    refine ⟨k, Nat.le_refl _, h, ?_, h.line, h.col, by simp⟩
    rw [this.2]
    exact .eof
  · rename_i b hc
    have hd := h.drop_some hc
    split
    · rename_i hp
      refine ⟨k + 1, by omega, h.read hc, ?_, h.line, h.col, by intro; omega⟩
      rw [hd.2.2]
      by_cases hb0 : b = 0
      · simp only [hb0, if_true]
        exact .nul
      · simp only [hb0, if_false]
        exact .punct (((isPunct_iff b).mp hp).resolve_right hb0)
    · rename_i hp
      split
      · rename_i hb
        obtain ⟨j, h1, h2, h3⟩ := readQuoted_at l (by rw [hc, hb]) h
        refine ⟨j, by omega, h2, ?_, h.line, h.col, by intro; omega⟩
        rcases h3 with ⟨d, h3, h4, h5⟩ | ⟨d, h3, h4, h5⟩
        · rw [h4]; exact .quoted h3 h5
        · rw [h4, h5]; exact .unterminated h3
      · rename_i hb
        obtain ⟨j, h1, h2, h3, h4, h5⟩ := readWord_at l h
        have hw : WordChar b := by
          have := hsk b hc
          rw [← isWordChar_iff]
          simp [isWordChar, this.1, this.2, hb, hp]
        have hne : (readWord l).1 ≠ [] := by
          intro e
          rw [e, List.nil_append] at h3
          rw [← h3, hd.2.2] at h5
          exact h5 b rfl hw
        have hlt : k < j := by
          rcases Nat.lt_or_ge k j with h | h
          · exact h
          · have : k = j := by omega
            subst this
            exact absurd (List.self_eq_append_left.mp h3) hne
        refine ⟨j, by omega, h2, ?_, h.line, h.col, fun _ => hlt⟩
        rw [h3]
        exact .plain hne h4 h5

/-- `l` is the lexer before the first character of `s` (offset 0) or at offset `k`. -/
def Here (s : Str) (k : Nat) (l : Lex) : Prop := (Init s l ∧ k = 0) ∨ At s k l

theorem yylex_at (l : Lex) {s k} (h : Here s k l) :
    ∃ i j, k ≤ i ∧ i ≤ j ∧ j ≤ s.length ∧ At s j (yylex l).2.2.2 ∧
      Blank (s.drop k) (s.drop i) ∧ Lexeme (s.drop i) (yylex l).1 (s.drop j) ∧
      (yylex l).2.1 = lineOf s i ∧ (yylex l).2.2.1 = colOf s i ∧
      ((yylex l).1 ≠ .end_ → i < j) := by
  rw [yylex_eq]
  obtain ⟨l0, h0, hs⟩ : ∃ l0, At s k l0 ∧ skip l = skip l0 := by
    rcases h with ⟨h, rfl⟩ | h
    · exact ⟨_, h.read, skip_init h⟩
    · exact ⟨l, h, rfl⟩
  rw [hs]
  obtain ⟨i, h1, h2, h3, h4⟩ := skip_at l0 h0
  obtain ⟨j, g1, g2, g3, g4, g5, g6⟩ := lexTok_at (skip l0) h2 h4
  exact ⟨i, j, h1, g1, g2.le, g2, h3, g3, g4, g5, g6⟩

/-! ### The specification is deterministic -/

theorem Spec.Blank.det {t r r'} (h : Blank t r) (h' : Blank t r') : r = r' := by
  induction h generalizing r' with
  | @done t hd =>
    cases h' with
    | done _ => rfl
    | space hw _ => exact absurd hw (hd _ rfl).1
    | comment _ _ _ => exact absurd rfl (hd _ rfl).2
  | @space b t r hw _ ih =>
    cases h' with
    | done hd => exact absurd hw (hd _ rfl).1
    | space _ h' => exact ih h'
    | comment _ _ _ => exact absurd hw (by decide)
  | @comment body t r hb ht _ ih =>
    generalize hx : ch '#' :: (body ++ t) = x at h'
    cases h' with
    | done hd => subst hx; exact absurd rfl (hd _ rfl).2
    | space hw _ => injection hx with h1 _; subst h1; exact absurd hw (by decide)
    | @comment body' t' r' hb' ht' h' =>
      injection hx with _ hx
      have : body = body' ∧ t = t' := by
        clear ih h'
        induction body generalizing body' with
        | nil =>
          cases body' with
          | nil => exact ⟨rfl, hx⟩
          | cons c body' =>
            simp only [List.nil_append, List.cons_append] at hx
            have := ht c (by rw [hx]; rfl)
            subst this
            simp at hb'
        | cons c body ih =>
          cases body' with
          | nil =>
            simp only [List.nil_append, List.cons_append] at hx
            have := ht' c (by rw [← hx]; rfl)
            subst this
            simp at hb
          | cons c' body' =>
            simp only [List.cons_append, List.cons.injEq] at hx
            simp only [List.mem_cons, not_or] at hb hb'
            have := ih hb.2 hb'.2 hx.2
            rw [hx.1, this.1]
            exact ⟨rfl, this.2⟩
      obtain ⟨rfl, rfl⟩ := this
      exact ih h'

theorem doubled_det {w d w' d' r r' : Str} (h : Doubled w d) (h' : Doubled w' d')
    (hr : ∀ b ∈ r.head?, b ≠ ch '\'') (hr' : ∀ b ∈ r'.head?, b ≠ ch '\'')
    (e : d ++ ch '\'' :: r = d' ++ ch '\'' :: r') : w = w' ∧ r = r' := by
  induction h generalizing w' d' with
  | nil =>
    cases h' with
    | nil => simpa using e
    | quote h' =>
      simp only [List.nil_append, List.cons_append, List.cons.injEq, true_and] at e
      exact absurd rfl (hr _ (by rw [e]; rfl))
    | other hb h' =>
      simp only [List.nil_append, List.cons_append, List.cons.injEq] at e
      exact absurd e.1.symm hb
  | quote _ ih =>
    cases h' with
    | nil =>
      simp only [List.nil_append, List.cons_append, List.cons.injEq, true_and] at e
      exact absurd rfl (hr' _ (by rw [← e]; rfl))
    | quote h' =>
      simp only [List.cons_append, List.cons.injEq, true_and] at e
      have := ih h' e
      exact ⟨by rw [this.1], this.2⟩
    | other hb h' =>
      simp only [List.cons_append, List.cons.injEq] at e
      exact absurd e.1.symm hb
  | other hb _ ih =>
    cases h' with
    | nil =>
      simp only [List.nil_append, List.cons_append, List.cons.injEq] at e
      exact absurd e.1 hb
    | quote h' =>
      simp only [List.cons_append, List.cons.injEq] at e
      exact absurd e.1 hb
    | other hb' h' =>
      simp only [List.cons_append, List.cons.injEq] at e
      have := ih h' e.2
      exact ⟨by rw [this.1, e.1], this.2⟩

theorem doubled_det_eof {w d w' d' r : Str} (h : Doubled w d) (h' : Doubled w' d')
    (hr : ∀ b ∈ r.head?, b ≠ ch '\'') (e : d ++ ch '\'' :: r = d') : False := by
  induction h generalizing w' d' with
  | nil =>
    cases h' with
    | nil => simp at e
    | quote h' =>
      simp only [List.nil_append, List.cons.injEq, true_and] at e
      exact absurd rfl (hr _ (by rw [e]; rfl))
    | other hb h' =>
      simp only [List.nil_append, List.cons.injEq] at e
      exact absurd e.1.symm hb
  | quote _ ih =>
    cases h' with
    | nil => simp at e
    | quote h' =>
      simp only [List.cons_append, List.cons.injEq, true_and] at e
      exact ih h' e
    | other hb h' =>
      simp only [List.cons_append, List.cons.injEq] at e
      exact absurd e.1.symm hb
  | other hb _ ih =>
    cases h' with
    | nil => simp at e
    | quote h' =>
      simp only [List.cons_append, List.cons.injEq] at e
      exact absurd e.1 hb
    | other hb' h' =>
      simp only [List.cons_append, List.cons.injEq] at e
      exact ih h' e.2

theorem doubled_inj {w w' d : Str} (h : Doubled w d) (h' : Doubled w' d) : w = w' := by
  induction h generalizing w' with
  | nil => cases h'; rfl
  | quote _ ih =>
    cases h' with
    | quote h' => rw [ih h']
    | other hb _ => exact absurd rfl hb
  | other hb _ ih =>
    cases h' with
    | quote h' => exact absurd rfl hb
    | other _ h' => rw [ih h']

theorem wordChar_quote : ¬ WordChar (ch '\'') := fun h => h.2.2.2.1 rfl

theorem punct_quote : ¬ Punct (ch '\'') := by decide

theorem plain_det {w w' r r' : Str} (hw : ∀ b ∈ w, WordChar b) (hw' : ∀ b ∈ w', WordChar b)
    (hr : ∀ b ∈ r.head?, ¬ WordChar b) (hr' : ∀ b ∈ r'.head?, ¬ WordChar b)
    (e : w ++ r = w' ++ r') : w = w' ∧ r = r' := by
  induction w generalizing w' with
  | nil =>
    cases w' with
    | nil => exact ⟨rfl, e⟩
    | cons b w' =>
      simp only [List.nil_append, List.cons_append] at e
      exact absurd (hw' b (by simp)) (hr b (by rw [e]; rfl))
  | cons b w ih =>
    cases w' with
    | nil =>
      simp only [List.nil_append, List.cons_append] at e
      exact absurd (hw b (by simp)) (hr' b (by rw [← e]; rfl))
    | cons b' w' =>
      simp only [List.cons_append, List.cons.injEq] at e
      have := ih (fun b hb => hw b (by simp [hb])) (fun b hb => hw' b (by simp [hb])) e.2
      exact ⟨by rw [e.1, this.1], this.2⟩

theorem Spec.Lexeme.det {t k r k' r'} (h : Lexeme t k r) (h' : Lexeme t k' r') : k = k' ∧ r = r' := by
  have p0 : ¬ Punct 0 := by decide
  have w0 : ¬ WordChar 0 := fun h => h.1 rfl
  cases h with
  | eof =>
    generalize hx : ([] : Str) = x at h'
    cases h' with
    | eof => exact ⟨rfl, rfl⟩
    | plain hw _ _ => simp at hx; exact absurd hx.1 hw
    | nul => cases hx
    | punct _ => cases hx
    | quoted _ _ => cases hx
    | unterminated _ => cases hx
  | nul =>
    generalize hx : 0 :: r = x at h'
    cases h' with
    | eof => cases hx
    | nul => injection hx with _ h; exact ⟨rfl, h⟩
    | punct hp => injection hx with h _; subst h; exact absurd hp p0
    | @plain w r hne hw hr =>
      cases w with
      | nil => exact absurd rfl hne
      | cons b w =>
        injection hx with h _
        exact absurd (h ▸ hw b (by simp)) w0
    | quoted _ _ => injection hx with h _; exact absurd h (by decide)
    | unterminated _ => injection hx with h _; exact absurd h (by decide)
  | @punct b r hp =>
    generalize hx : b :: r = x at h'
    cases h' with
    | eof => cases hx
    | nul => injection hx with h _; exact absurd (h ▸ hp) p0
    | punct hp => injection hx with h h2; subst h h2; exact ⟨rfl, rfl⟩
    | @plain w r hne hw hr =>
      cases w with
      | nil => exact absurd rfl hne
      | cons b' w =>
        injection hx with h _
        subst h
        exact absurd hp (hw b (by simp)).2.2.1
    | quoted _ _ => injection hx with h _; exact absurd (h ▸ hp) punct_quote
    | unterminated _ => injection hx with h _; exact absurd (h ▸ hp) punct_quote
  | @plain w r hne hw hr =>
    generalize hx : w ++ r = x at h'
    cases h' with
    | eof => simp at hx; exact absurd hx.1 hne
    | nul =>
      cases w with
      | nil => exact absurd rfl hne
      | cons b w =>
        injection hx with h _
        exact absurd (h ▸ hw b (by simp)) w0
    | punct hp =>
      cases w with
      | nil => exact absurd rfl hne
      | cons b w =>
        injection hx with h _
        subst h
        exact absurd hp (hw b (by simp)).2.2.1
    | @plain w' r' hne' hw' hr' =>
      obtain ⟨rfl, rfl⟩ := plain_det hw hw' hr hr' hx
      exact ⟨rfl, rfl⟩
    | quoted _ _ =>
      cases w with
      | nil => exact absurd rfl hne
      | cons b w =>
        injection hx with h _
        exact absurd (h ▸ hw b (by simp)) wordChar_quote
    | unterminated _ =>
      cases w with
      | nil => exact absurd rfl hne
      | cons b w =>
        injection hx with h _
        exact absurd (h ▸ hw b (by simp)) wordChar_quote
  | @quoted w d r hd hr =>
    generalize hx : ch '\'' :: (d ++ ch '\'' :: r) = x at h'
    cases h' with
    | eof => cases hx
    | nul => injection hx with h _; exact absurd h (by decide)
    | punct hp => injection hx with h _; exact absurd (h ▸ hp) punct_quote
    | @plain w' r' hne' hw' hr' =>
      cases w' with
      | nil => exact absurd rfl hne'
      | cons b w =>
        injection hx with h _
        exact absurd (h ▸ hw' b (by simp)) wordChar_quote
    | quoted hd' hr' =>
      injection hx with _ hx
      obtain ⟨rfl, rfl⟩ := doubled_det hd hd' hr hr' hx
      exact ⟨rfl, rfl⟩
    | unterminated hd' =>
      injection hx with _ hx
      exact (doubled_det_eof hd hd' hr hx).elim
  | @unterminated w d hd =>
    generalize hx : ch '\'' :: d = x at h'
    cases h' with
    | eof => cases hx
    | nul => injection hx with h _; exact absurd h (by decide)
    | punct hp => injection hx with h _; exact absurd (h ▸ hp) punct_quote
    | @plain w' r' hne' hw' hr' =>
      cases w' with
      | nil => exact absurd rfl hne'
      | cons b w =>
        injection hx with h _
        exact absurd (h ▸ hw' b (by simp)) wordChar_quote
    | quoted hd' hr' =>
      injection hx with _ hx
      exact (doubled_det_eof hd' hd hr' hx.symm).elim
    | unterminated hd' =>
      injection hx with _ hx
      subst hx
      rw [doubled_inj hd hd']
      exact ⟨rfl, rfl⟩

end Verif.Text
