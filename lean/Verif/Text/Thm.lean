import Verif.Text.Lemmas
/- Theorems: C31-C34, C54 (lexer, names, module paths). -/
namespace Verif.Text
open Spec

/-! ### C32: locations -/

/-- The lexer after `n` calls of ReadNextChar on a file. -/
def readN (s : Str) : Nat → Lex
  | 0 => initLex false s
  | n + 1 => readNextChar (readN s n)

/-- C32. After `k + 1` characters have been asked for, the lexer shows character `k` of the file
(or end of file) together with that character's exact line and column. -/
theorem C32_read_locations (s : Str) (k : Nat) :
    (readN s (k + 1)).c = s[k]? ∧ (readN s (k + 1)).line = lineOf s k ∧
    (readN s (k + 1)).col = colOf s k := by
  have key : ∀ k, At s (min k s.length) (readN s (k + 1)) := by
    intro k
    induction k with
    | zero =>
      have : min 0 s.length = 0 := by omega
      rw [this]
      exact Init.read ⟨false, rfl, by simp⟩
    | succ k ih =>
      change At s _ (readNextChar (readN s (k + 1)))
      cases hc : (readN s (k + 1)).c with
      | none =>
        rw [ih.read_eof hc]
        have := (ih.drop_none hc).1
        have e : min (k + 1) s.length = min k s.length := by omega
        rw [e]
        exact ih
      | some b =>
        have := (ih.drop_some hc).1
        have e : min (k + 1) s.length = min k s.length + 1 := by omega
        rw [e]
        exact ih.read hc
  have h := key k
  rcases Nat.le_total k s.length with hk | hk
  · rw [Nat.min_eq_left hk] at h
    exact ⟨h.c, h.line, h.col⟩
  · rw [Nat.min_eq_right hk] at h
    have ht : s.take k = s.take s.length := by
      rw [List.take_of_length_le hk, List.take_length]
    have h1 : lineOf s k = lineOf s s.length := by simp only [lineOf, ht]
    have h2 : colOf s k = colOf s s.length := by simp only [colOf, ht]
    rw [h1, h2]
    refine ⟨?_, h.line, h.col⟩
    rw [h.c, List.getElem?_eq_none hk, List.getElem?_eq_none (Nat.le_refl _)]

/-- The lexer before the `n`th token of a file. -/
def lexN (s : Str) : Nat → Lex
  | 0 => initLex false s
  | n + 1 => (yylex (lexN s n)).2.2.2

/-- Offset of the lexer in the file. -/
def offset (s : Str) (l : Lex) : Nat :=
  if l.c = none then s.length else s.length - l.rest.length - 1

theorem At.offset_eq {s k l} (h : At s k l) : offset s l = k := by
  unfold offset
  split
  · rename_i hc
    exact (h.drop_none hc).1.symm
  · rename_i hc
    cases hc' : l.c with
    | none => exact absurd hc' hc
    | some b =>
      have h1 := (h.drop_some hc').1
      rw [h.rest, List.length_drop]
      omega

theorem here_lexN (s : Str) (n : Nat) : Here s (offset s (lexN s n)) (lexN s n) := by
  induction n with
  | zero =>
    left
    refine ⟨⟨false, rfl, by simp⟩, ?_⟩
    simp [offset, lexN, initLex]
  | succ n ih =>
    obtain ⟨i, j, _, _, _, h, _⟩ := yylex_at _ ih
    right
    change At s (offset s (yylex (lexN s n)).2.2.2) _
    rw [h.offset_eq]
    exact h

/-- C32. Every token is reported with the exact line and column of its first character: the
`n`th token starts at an offset `i`, after the blanks and comments that follow the previous token,
has exactly the text that spells it, and carries the line and column of offset `i`. -/
theorem C32_token_locations (s : Str) (n : Nat) :
    ∃ i, Blank (s.drop (offset s (lexN s n))) (s.drop i) ∧ i ≤ s.length ∧
      Lexeme (s.drop i) (yylex (lexN s n)).1 (s.drop (offset s (lexN s (n + 1)))) ∧
      (yylex (lexN s n)).2.1 = lineOf s i ∧ (yylex (lexN s n)).2.2.1 = colOf s i := by
  obtain ⟨i, j, h1, h2, h3, h4, h5, h6, h7, h8, _⟩ := yylex_at _ (here_lexN s n)
  refine ⟨i, h5, by omega, ?_, h7, h8⟩
  have : offset s (lexN s (n + 1)) = j := h4.offset_eq
  rw [this]
  exact h6

/-! ### C33: the whole file is read -/

/-- The tokens a parser that asks for tokens until END receives, and the lexer afterwards. -/
def tokens : Nat → Lex → Option (List Token × Lex)
  | 0, _ => none
  | fuel + 1, l =>
    if (yylex l).1 = .end_ then some ([], (yylex l).2.2.2)
    else (tokens fuel (yylex l).2.2.2).map fun r => ((yylex l).1 :: r.1, r.2)

theorem tokens_spec (s : Str) (fuel k : Nat) (l : Lex) (h : Here s k l) (hf : s.length - k < fuel) :
    ∃ ts l' j, tokens fuel l = some (ts, l') ∧ At s j l' ∧ k ≤ j ∧ Lexes (s.drop k) ts (s.drop j) := by
  induction fuel generalizing k l with
  | zero => omega
  | succ fuel ih =>
    obtain ⟨i, j, h1, h2, h3, h4, h5, h6, _, _, h7⟩ := yylex_at _ h
    unfold tokens
    split
    · rename_i he
      exact ⟨[], _, j, rfl, h4, by omega, .stop h5 (he ▸ h6)⟩
    · rename_i he
      have := h7 he
      obtain ⟨ts, l', j', g1, g2, g3, g4⟩ := ih j _ (.inr h4) (by omega)
      refine ⟨_ :: ts, l', j', ?_, g2, by omega, .next h5 h6 he g4⟩
      rw [g1]
      rfl

theorem Spec.Lexes.no_nul {s ts r} (h : Lexes s ts r) (h0 : (0 : Byte) ∉ s) : r = [] := by
  have blank : ∀ {s t : Str}, Blank s t → (0 : Byte) ∉ s → (0 : Byte) ∉ t := by
    intro s t h
    induction h with
    | done => exact id
    | space _ _ ih => intro h0; simp at h0; exact ih h0.2
    | comment _ _ _ ih => intro h0; simp at h0; exact ih h0.2.2
  have lexeme : ∀ {s k t}, Lexeme s k t → (0 : Byte) ∉ s → (0 : Byte) ∉ t ∧ (k = .end_ → t = []) := by
    intro s k t h h0
    cases h with
    | eof => exact ⟨h0, fun _ => rfl⟩
    | nul => simp at h0
    | punct => simp at h0; exact ⟨h0.2, by simp⟩
    | plain => simp at h0; exact ⟨h0.2, by simp⟩
    | quoted => simp at h0; exact ⟨h0.2.2.2, by simp⟩
    | unterminated => exact ⟨by simp, by simp⟩
  induction h with
  | stop h1 h2 => exact (lexeme h2 (blank h1 h0)).2 rfl
  | next h1 h2 _ _ ih => exact ih (lexeme h2 (blank h1 h0)).1

/-- C33. Every file without NUL bytes is read to its end: the tokens received up to END, with the
blanks and comments between them, spell the whole file, and the lexer is then at end of file.
(`tokens` with fuel `length + 1` always finishes.) -/
theorem C33_whole_file (s : Str) (h0 : (0 : Byte) ∉ s) :
    ∃ ts l, tokens (s.length + 1) (initLex false s) = some (ts, l) ∧ Lexes s ts [] ∧
      l.c = none ∧ l.rest = [] := by
  have hh : Here s 0 (initLex false s) := .inl ⟨⟨false, rfl, by simp⟩, rfl⟩
  obtain ⟨ts, l, j, h1, h2, h3, h4⟩ := tokens_spec s (s.length + 1) 0 _ hh (by omega)
  rw [List.drop_zero] at h4
  have hr := h4.no_nul h0
  refine ⟨ts, l, h1, hr ▸ h4, ?_, ?_⟩
  · rw [h2.c]
    rw [List.drop_eq_nil_iff] at hr
    exact List.getElem?_eq_none hr
  · rw [h2.rest]
    rw [List.drop_eq_nil_iff] at hr ⊢
    omega

/-- C33 fails for files with a NUL byte: any text `t` after a NUL at the start of a token is never
looked at, the parser is told the file ended. -/
theorem C33_violated (t : Str) :
    ∃ l, tokens (t.length + 2) (initLex false (0 :: t)) = some ([], l) ∧
      l.c = t[0]? ∧ l.rest = t.drop 1 := by
  have hh : Here (0 :: t) 0 (initLex false (0 :: t)) := .inl ⟨⟨false, rfl, by simp⟩, rfl⟩
  obtain ⟨i, j, h1, h2, h3, h4, h5, h6, _, _, h7⟩ := yylex_at _ hh
  have hb : Blank (0 :: t) (0 :: t) := .done (by intro b hb; cases hb; exact ⟨by decide, by decide⟩)
  have hi := hb.det h5
  rw [← hi] at h6
  obtain ⟨h8, h9⟩ := Lexeme.det h6 .nul
  have hj : j = 1 := by
    have := congrArg List.length h9
    simp at this h3
    have h10 := congrArg List.length hi
    simp at h10
    omega
  subst hj
  refine ⟨(yylex (initLex false (0 :: t))).2.2.2, ?_, h4.c, h4.rest⟩
  simp only [tokens, h8, if_true]

/-- Not vacuous: a NUL after a word. -/
example : ∃ l, tokens 6 (initLex false [ch 'a', 0, ch 'b']) = some ([.word [ch 'a']], l) ∧
    l.c = some (ch 'b') := by
  have hh : Here [ch 'a', 0, ch 'b'] 0 (initLex false [ch 'a', 0, ch 'b']) :=
    .inl ⟨⟨false, rfl, by simp⟩, rfl⟩
  obtain ⟨ts, l', j, h1, h2, h3, h4⟩ := tokens_spec _ 6 0 _ hh (by simp)
  have spec : Lexes [ch 'a', 0, ch 'b'] [.word [ch 'a']] [ch 'b'] :=
    .next (.done (by intro b hb; cases hb; exact ⟨by decide, by decide⟩))
      (.plain (w := [ch 'a']) (by simp) (by simp; decide) (by intro b hb; cases hb; decide)) (by simp)
      (.stop (.done (by intro b hb; cases hb; exact ⟨by decide, by decide⟩)) .nul)
  have det : ∀ {s ts r ts' r'}, Lexes s ts r → Lexes s ts' r' → ts = ts' ∧ r = r' := by
    intro s ts r ts' r' h
    induction h generalizing ts' r' with
    | stop h1 h2 =>
      intro h
      cases h with
      | stop h3 h4 => rw [h1.det h3] at h2; exact ⟨rfl, (h2.det h4).2⟩
      | next h3 h4 h5 _ => rw [h1.det h3] at h2; exact absurd (h2.det h4).1.symm h5
    | next h1 h2 hne _ ih =>
      intro h
      cases h with
      | stop h3 h4 => rw [h1.det h3] at h2; exact absurd (h2.det h4).1 hne
      | next h3 h4 h5 h6 =>
        rw [h1.det h3] at h2
        obtain ⟨rfl, rfl⟩ := h2.det h4
        have := ih h6
        exact ⟨by rw [this.1], this.2⟩
  obtain ⟨rfl, hr⟩ := det h4 spec
  refine ⟨l', h1, ?_⟩
  have := congrArg List.head? hr
  rw [List.head?_drop] at this
  rw [h2.c, this]
  rfl

/-! ### C31: printed names read back -/

theorem doubled_printChars (w : Str) : Doubled w (printChars w) := by
  induction w with
  | nil => exact .nil
  | cons b w ih =>
    unfold printChars
    split
    · rename_i h; rw [h]; exact .quote ih
    · rename_i h; exact .other h ih

theorem isPlainWord_iff (w : Str) : isPlainWord w = true ↔ ∀ b ∈ w, WordChar b ∧ b ≠ 0xFF := by
  induction w with
  | nil => simp [isPlainWord]
  | cons b w ih =>
    unfold isPlainWord
    have := isWordChar_iff b
    split
    · rename_i h
      simp only [Bool.or_eq_true, decide_eq_true_eq, Bool.not_eq_true', ← Bool.not_eq_true, this] at h
      simp only [Bool.false_eq_true, List.mem_cons, forall_eq_or_imp, false_iff]
      tauto
    · rename_i h
      simp only [Bool.or_eq_true, decide_eq_true_eq, Bool.not_eq_true', ← Bool.not_eq_true, this] at h
      rw [ih]
      simp only [List.mem_cons, forall_eq_or_imp]
      have h' : WordChar b ∧ b ≠ 255 := by tauto
      exact ⟨fun g => ⟨h', g⟩, fun g => g.2⟩

theorem printChars_plain {w : Str} (h : ∀ b ∈ w, WordChar b) : printChars w = w := by
  induction w with
  | nil => rfl
  | cons b w ih =>
    have hb := (h b (by simp)).2.2.2.1
    simp only [printChars, hb, if_false]
    rw [ih fun b hb => h b (by simp [hb])]

/-- The text and continuation determine the token read. -/
theorem yylex_exact {s k l t tok r} (h : Here s k l) (ht : s.drop k = t) (hl : Lexeme t tok r)
    (hb : ∀ b ∈ t.head?, ¬ White b ∧ b ≠ ch '#') :
    (yylex l).1 = tok ∧ ∃ j, At s j (yylex l).2.2.2 ∧ s.drop j = r := by
  obtain ⟨i, j, h1, h2, h3, h4, h5, h6, _, _, h7⟩ := yylex_at _ h
  rw [ht] at h5
  have := (Blank.done hb).det h5
  rw [← this] at h6
  obtain ⟨e1, e2⟩ := hl.det h6
  exact ⟨e1.symm, j, h4, e2.symm⟩

/-- The text of a name, as a lexeme: what `FblePrintName` writes before the suffix. -/
theorem lexeme_printed (w rest : Str) (hne : w ≠ [])
    (hr : ∀ b ∈ rest.head?, ¬ WordChar b ∧ b ≠ ch '\'') :
    let q : Str := if !isPlainWord w then [ch '\''] else []
    Lexeme (q ++ printChars w ++ q ++ rest) (.word w) rest ∧
    ∀ b ∈ (q ++ printChars w ++ q ++ rest).head?, ¬ White b ∧ b ≠ ch '#' := by
  by_cases hp : isPlainWord w = true
  · have hw := (isPlainWord_iff w).mp hp
    have hw' : ∀ b ∈ w, WordChar b := fun b hb => (hw b hb).1
    simp only [hp, Bool.not_true, Bool.false_eq_true, if_false, List.nil_append, List.append_nil,
      printChars_plain hw']
    refine ⟨.plain hne hw' fun b hb => (hr b hb).1, ?_⟩
    cases w with
    | nil => exact absurd rfl hne
    | cons b w =>
      rintro b' ⟨⟩
      have := hw' b (by simp)
      exact ⟨this.2.1, this.2.2.2.2⟩
  · simp only [Bool.not_eq_true] at hp
    simp only [hp, Bool.not_false, if_true]
    refine ⟨?_, ?_⟩
    · have := Lexeme.quoted (doubled_printChars w) (fun b hb => (hr b hb).2)
      simpa using this
    · rintro b' ⟨⟩
      exact ⟨by decide, by decide⟩

theorem toCStr_eq {w : Str} (h : (0 : Byte) ∉ w) : toCStr w = w := by
  unfold toCStr
  induction w with
  | nil => rfl
  | cons b w ih =>
    simp only [List.mem_cons, not_or] at h
    rw [List.takeWhile_cons, ih h.2]
    simp [Ne.symm h.1]

/-- C31, names in the type name space. Wherever the lexer is, if the text it has before it is the
printed form of a nonempty name, the parser gets exactly that name, and then continues exactly
after the printed text. -/
theorem C31_type_name (n : Name) (hsp : n.space = .type) (hne : n.str ≠ []) (h0 : (0 : Byte) ∉ n.str)
    (s rest : Str) (k : Nat) (l : Lex) (h : Here s k l) (ht : s.drop k = printName n ++ rest) :
    (yylex l).1 = .word n.str ∧
    parseName (yylex l).1 (yylex (yylex l).2.2.2).1 = some (n, true) ∧
    ∃ j, At s j (yylex (yylex l).2.2.2).2.2.2 ∧ s.drop j = rest := by
  cases n with | mk w sp =>
  simp only at hsp hne h0
  subst hsp
  have hl := lexeme_printed w (ch '@' :: rest) hne
    (by rintro b ⟨⟩; exact ⟨by decide, by decide⟩)
  have e : s.drop k = (if !isPlainWord w then [ch '\''] else []) ++ printChars w ++
      (if !isPlainWord w then [ch '\''] else []) ++ ch '@' :: rest := by
    rw [ht]; simp [printName]
  obtain ⟨h1, j, h2, h3⟩ := yylex_exact h e hl.1 hl.2
  obtain ⟨h4, j', h5, h6⟩ := yylex_exact (.inr h2) h3 (.punct (by decide))
    (by rintro b ⟨⟩; exact ⟨by decide, by decide⟩)
  refine ⟨h1, ?_, j', h5, h6⟩
  rw [h1, h4]
  simp [parseName, toCStr_eq h0]

/-- C31, ordinary names. The printed form of a nonempty name, followed by anything that does not
continue a word (end of input, or a character that is not a word character nor a quote), is read
as the single word token with exactly the original characters; and the parser takes it as that
name unless an `@` token follows. -/
theorem C31_normal_name (n : Name) (hsp : n.space = .normal) (hne : n.str ≠ []) (h0 : (0 : Byte) ∉ n.str)
    (s rest : Str) (k : Nat) (l : Lex) (h : Here s k l) (ht : s.drop k = printName n ++ rest)
    (hr : ∀ b ∈ rest.head?, ¬ WordChar b ∧ b ≠ ch '\'') :
    (yylex l).1 = .word n.str ∧
    (∀ t, t ≠ .punct (ch '@') → parseName (yylex l).1 t = some (n, false)) ∧
    ∃ j, At s j (yylex l).2.2.2 ∧ s.drop j = rest := by
  cases n with | mk w sp =>
  simp only at hsp hne h0
  subst hsp
  have hl := lexeme_printed w rest hne hr
  have e : s.drop k = (if !isPlainWord w then [ch '\''] else []) ++ printChars w ++
      (if !isPlainWord w then [ch '\''] else []) ++ rest := by
    rw [ht]; simp [printName]
  obtain ⟨h1, j, h2, h3⟩ := yylex_exact h e hl.1 hl.2
  refine ⟨h1, ?_, j, h2, h3⟩
  intro t ht
  rw [h1]
  simp [parseName, toCStr_eq h0, ht]

/-- C31: two different nonempty names never print the same. -/
theorem C31_print_injective (n m : Name) (hn : n.str ≠ []) (hm : m.str ≠ [])
    (h : printName n = printName m) : n = m := by
  have key : ∀ n : Name, n.str ≠ [] → ∃ r, Lexeme (printName n) (.word n.str) r ∧
      r = (if n.space = .normal then [] else [ch '@']) := by
    intro n hn
    refine ⟨_, ?_, rfl⟩
    have := (lexeme_printed n.str (if n.space = .normal then [] else [ch '@']) hn (by
      cases n.space
      · simp
      · rintro b ⟨⟩; exact ⟨by decide, by decide⟩)).1
    cases n with | mk w sp =>
    cases sp <;> simpa [printName] using this
  obtain ⟨r, h1, h2⟩ := key n hn
  obtain ⟨r', h3, h4⟩ := key m hm
  rw [h] at h1
  obtain ⟨e1, e2⟩ := h1.det h3
  cases n with | mk w sp =>
  cases m with | mk w' sp' =>
  simp only [Token.word.injEq] at e1
  subst e1
  rw [h2, h4] at e2
  cases sp <;> cases sp' <;> simp at e2 <;> rfl

/-- C31 fails for the empty name (which the parser produces for `''`): its printed form reads
back as no word at all. -/
theorem C31_empty_name_violated :
    (∀ sp w, (yylex (initLex false (printName ⟨[], sp⟩))).1 ≠ .word w) ∧
    (yylex (initLex false [ch '\'', ch '\''])).1 = .word [] := by
  constructor
  · intro sp w
    have hh : Here (printName ⟨[], sp⟩) 0 (initLex false (printName ⟨[], sp⟩)) :=
      .inl ⟨⟨false, rfl, by simp⟩, rfl⟩
    cases sp with
    | normal =>
      have := (yylex_exact hh (t := []) rfl .eof (by simp)).1
      rw [this]; simp
    | type =>
      have := (yylex_exact hh (t := [ch '@']) rfl (.punct (by decide))
        (by rintro b ⟨⟩; exact ⟨by decide, by decide⟩)).1
      rw [this]; simp
  · have hh : Here [ch '\'', ch '\''] 0 (initLex false [ch '\'', ch '\'']) :=
      .inl ⟨⟨false, rfl, by simp⟩, rfl⟩
    exact (yylex_exact hh rfl (.quoted (d := []) (r := []) .nil (by simp))
      (by rintro b ⟨⟩; exact ⟨by decide, by decide⟩)).1

/-- Not vacuous: a name with a quote, a space and a byte 0xFF, at the start of a file. -/
example : (yylex (initLex false (printName ⟨[ch 'a', ch '\'', ch ' ', 0xFF], .type⟩))).1 =
    .word [ch 'a', ch '\'', ch ' ', 0xFF] := by
  have hh : Here (printName ⟨[ch 'a', ch '\'', ch ' ', 0xFF], .type⟩) 0
      (initLex false (printName ⟨[ch 'a', ch '\'', ch ' ', 0xFF], .type⟩)) :=
    .inl ⟨⟨false, rfl, by simp⟩, rfl⟩
  exact (C31_type_name ⟨[ch 'a', ch '\'', ch ' ', 0xFF], .type⟩ rfl (by simp) (by decide) _ [] 0 _ hh
    (by simp)).1

/-! ### C34: module paths -/

theorem namesEqual_iff (a b : Name) : namesEqual a b = true ↔ a = b := by
  cases a; cases b
  simp [namesEqual, and_comm]

theorem pathsEqualFrom_iff (a b : Path) (i : Nat) (h : a.length = b.length) :
    pathsEqualFrom a b i = true ↔ a.drop i = b.drop i := by
  fun_induction pathsEqualFrom a b i with
  | case1 i hi hi' he ih =>
    rw [ih]
    rw [List.drop_eq_getElem_cons hi, List.drop_eq_getElem_cons hi', (namesEqual_iff _ _).mp he,
      List.cons.injEq]
    exact ⟨fun h => ⟨rfl, h⟩, fun h => h.2⟩
  | case2 i hi hi' he =>
    rw [namesEqual_iff] at he
    rw [List.drop_eq_getElem_cons hi, List.drop_eq_getElem_cons hi', List.cons.injEq]
    exact ⟨fun h => absurd h (by simp), fun h => absurd h.1 he⟩
  | case3 i hi hi' => omega
  | case4 i hi =>
    rw [List.drop_eq_nil_iff.mpr (by omega), List.drop_eq_nil_iff.mpr (by omega)]
    simp

/-- C34. Module path equality is equality of the lists of names (characters and name space). -/
theorem C34_paths_equal (a b : Path) : pathsEqual a b = true ↔ a = b := by
  unfold pathsEqual
  split
  · rename_i h
    simp only [Bool.false_eq_true, false_iff]
    rintro rfl
    exact h rfl
  · rename_i h
    rw [pathsEqualFrom_iff a b 0 (by simpa using h)]
    simp

theorem belongsFrom_iff (m p : Path) (i : Nat) (h : p.length ≤ m.length) :
    belongsFrom m p i = true ↔ p.drop i <+: m.drop i := by
  fun_induction belongsFrom m p i with
  | case1 i hi hi' he ih =>
    rw [ih]
    rw [List.drop_eq_getElem_cons hi, List.drop_eq_getElem_cons hi', (namesEqual_iff _ _).mp he,
      List.cons_prefix_cons]
    exact ⟨fun h => ⟨rfl, h⟩, fun h => h.2⟩
  | case2 i hi hi' he =>
    rw [namesEqual_iff] at he
    rw [List.drop_eq_getElem_cons hi, List.drop_eq_getElem_cons hi', List.cons_prefix_cons]
    exact ⟨fun h => absurd h (by simp), fun h => absurd h.1.symm he⟩
  | case3 i hi hi' => omega
  | case4 i hi =>
    rw [List.drop_eq_nil_iff.mpr (by omega)]
    simp

/-- C34. A module belongs to a package exactly when the package's names are a prefix of the
module's. -/
theorem C34_belongs (m p : Path) : belongsToPackage m p = true ↔ ∃ q, m = p ++ q := by
  unfold belongsToPackage
  split
  · rename_i h
    simp only [Bool.false_eq_true, false_iff]
    rintro ⟨q, rfl⟩
    simp at h
    omega
  · rename_i h
    rw [belongsFrom_iff m p 0 (by omega)]
    simp only [List.drop_zero, List.IsPrefix, eq_comm]

/-- Hence a module path belongs to itself as a package, and membership is transitive. -/
theorem C34_belongs_trans (a b c : Path) (h1 : belongsToPackage a b = true)
    (h2 : belongsToPackage b c = true) : belongsToPackage a c = true := by
  rw [C34_belongs] at *
  obtain ⟨q, rfl⟩ := h1
  obtain ⟨r, rfl⟩ := h2
  exact ⟨r ++ q, by simp⟩

example : belongsToPackage [⟨[ch 'a'], .normal⟩, ⟨[ch 'b'], .normal⟩] [⟨[ch 'a'], .normal⟩] = true ∧
    belongsToPackage [⟨[ch 'a', ch 'b'], .normal⟩] [⟨[ch 'a'], .normal⟩] = false := by
  constructor
  · exact (C34_belongs _ _).mpr ⟨[⟨[ch 'b'], .normal⟩], rfl⟩
  · rw [← Bool.not_eq_true, C34_belongs]
    rintro ⟨q, h⟩
    simp [ch] at h

/-! ### C54: printed module paths (see also Parse/File.lean) -/

/-- Without the restriction to plain words printing is ambiguous: the paths `/a/b%` and
`/'a/b'%` print the same. -/
theorem C54_quoted_ambiguous :
    printPath [⟨[ch 'a'], .normal⟩, ⟨[ch 'b'], .normal⟩] =
    printPath [⟨[ch 'a', ch '/', ch 'b'], .normal⟩] := by decide

/-- FbleModulePathName builds the printed form of the path, and the buffer it allocates holds it
together with its terminator. -/
theorem C54_path_name (p : Path) :
    pathName p = printPath p ∧ (pathName p).length + 1 ≤ pathNameAlloc p := by
  have h1 : ∀ (p : Path) (s : Str), p.foldl (fun s n => (s ++ [ch '/']) ++ n.str) s =
      s ++ p.flatMap (fun n => ch '/' :: n.str) := by
    intro p
    induction p with
    | nil => simp
    | cons n p ih => intro s; rw [List.foldl_cons, ih, List.flatMap_cons]; simp only [List.append_assoc, List.cons_append, List.nil_append]
  have h2 : ∀ (p : Path) (a : Nat), p.foldl (fun len n => len + (1 + n.str.length)) a =
      a + (p.flatMap (fun n => ch '/' :: n.str)).length := by
    intro p
    induction p with
    | nil => simp
    | cons n p ih => intro a; simp [ih]; omega
  constructor
  · simp only [pathName, printPath, h1, List.nil_append]
  · simp only [pathName, pathNameAlloc, h1, h2, List.nil_append, List.length_append]
    split <;> simp <;> omega

end Verif.Text
