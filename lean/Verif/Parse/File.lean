import Verif.Parse.Path
/-
Theorems about the text of programs and module paths: C67, C69, C54; and what goes wrong.
-/
namespace Verif.Parse
open Text (Token Byte Str ch tokens initLex Here toCStr)
open Text.Spec (Lexes Lexeme Blank WordChar)
open Elab (Expr)

/-- parse.y:920-940 `FbleParse`, for the contents of the file. -/
def FbleParseFile (s : Str) (result : Option Expr) (deps : List Text.Path) (ok : Bool) : Prop :=
  ∃ ts l, tokens (s.length + 1) (initLex false s) = some (ts, l) ∧ FbleParse ts result deps ok

/-- parse.y:943-970 `FbleParseModulePath`. -/
def FbleParseModulePathString (s : Str) (result : Option Text.Path) (ok : Bool) : Prop :=
  ∃ ts l, tokens (s.length + 1) (initLex true s) = some (ts, l) ∧ FbleParseModulePath ts result ok

theorem lexes_det {s ts r ts' r'} (h : Lexes s ts r) : Lexes s ts' r' → ts = ts' ∧ r = r' := by
  induction h generalizing ts' r' with
  | stop h1 h2 =>
    intro h
    cases h with
    | stop h3 h4 => rw [h1.det h3] at h2; exact ⟨rfl, (h2.det h4).2⟩
    | next h3 h4 h5 _ => rw [h1.det h3] at h2; exact absurd (h2.det h4).1.symm h5
  | next h1 h2 hne _ ih =>
    intro h
    cases h with
    | stop h3 h4 => rw [h1.det h3] at h2; exact absurd (h2.det h4).1 hne
    | next h3 h4 h5 h6 =>
      rw [h1.det h3] at h2
      obtain ⟨rfl, rfl⟩ := h2.det h4
      have := ih h6
      exact ⟨by rw [this.1], this.2⟩

theorem lexes_no_end {s ts r} (h : Lexes s ts r) : ∀ t ∈ ts, t ≠ .end_ := by
  induction h with
  | stop _ _ => simp
  | next _ _ hne _ ih =>
    intro t ht
    rcases List.mem_cons.mp ht with rfl | ht
    · exact hne
    · exact ih t ht

/-- The tokens of a text. -/
theorem tokens_of (fromStr : Bool) (s : Str) (hff : fromStr = true → (0xFF : Byte) ∉ s) :
    ∃ ts l r, tokens (s.length + 1) (initLex fromStr s) = some (ts, l) ∧ Lexes s ts r := by
  have hh : Here s 0 (initLex fromStr s) := .inl ⟨⟨fromStr, rfl, hff⟩, rfl⟩
  obtain ⟨ts, l, j, h1, -, -, h4⟩ := Text.tokens_spec s (s.length + 1) 0 _ hh (by omega)
  exact ⟨ts, l, _, h1, h4⟩

theorem atEnd_nil {s ts r} {a rest : List Token} (h : Lexes s ts r) (hts : ts = a ++ rest) (he : AtEnd rest) : rest = [] := by
  cases rest with
  | nil => rfl
  | cons t rest => exact absurd (he t rfl) (lexes_no_end h t (by rw [hts]; simp))

/-- C67. A file is parsed without an error exactly if its text, up to the end of the file or a NUL character, spells a program; and then the result is
that program.  The exception: programs that need more stack than the parser can have. -/
theorem C67_file (s : Str) (result : Option Expr) (deps : List Text.Path) :
    FbleParseFile s result deps true ↔
    ∃ (p : SStmt) (r : Str) (e : Expr), Lexes s p.toks r ∧ p.ast = some e ∧ p.height < 9998 ∧ result = some e ∧ deps = firsts p.mods := by
  obtain ⟨ts, l, r, h1, h2⟩ := tokens_of false s (by simp)
  constructor
  · rintro ⟨ts', l', h3, h4⟩
    rw [h1] at h3
    cases h3
    obtain ⟨p, rest, e, rfl, h5, h6, h7⟩ := (C67_no_error ts).mp ⟨_, _, h4⟩
    have hb : ∀ t ∈ rest.head?, ¬ Begins t := by
      intro t ht hbt
      rw [h5 t ht] at hbt
      exact hbt
    obtain ⟨d, ok, g1, -, -⟩ := parse_program ⟨rfl, hb⟩ h6 h7
    obtain ⟨rfl, rfl, -⟩ := (C67_total _).2 _ _ _ _ _ _ h4 g1
    have hd := (C68_deps g1 ⟨rfl, hb⟩).1
    have := atEnd_nil h2 rfl h5
    subst this
    exact ⟨p, r, e, by simpa using h2, h6, h7, rfl, hd⟩
  · rintro ⟨p, r', e, h3, h4, h5, rfl, rfl⟩
    obtain ⟨rfl, rfl⟩ := lexes_det h2 h3
    have hp : Parses p.toks p [] := ⟨by simp, by simp⟩
    obtain ⟨d, ok, g1, -, g3⟩ := parse_program hp h4 h5
    have hd := (C68_deps g1 hp).1
    rw [g3.mpr (by simp [AtEnd]), hd] at g1
    exact ⟨_, _, h1, g1⟩

/-- C67. Files without NUL characters: the whole file is the program. -/
theorem C67_whole_file (s : Str) (h0 : (0 : Byte) ∉ s) (result : Option Expr) (deps : List Text.Path) :
    FbleParseFile s result deps true ↔
    ∃ (p : SStmt) (e : Expr), Lexes s p.toks [] ∧ p.ast = some e ∧ p.height < 9998 ∧ result = some e ∧ deps = firsts p.mods := by
  rw [C67_file]
  constructor
  · rintro ⟨p, r, e, h1, h2⟩
    have := h1.no_nul h0
    subst this
    exact ⟨p, e, h1, h2⟩
  · rintro ⟨p, e, h1, h2⟩
    exact ⟨p, [], e, h1, h2⟩

/-- C67. A text is at most one program. -/
theorem C67_one_program {s : Str} {p p' : SStmt} {r r' : Str} (h : Lexes s p.toks r) (h' : Lexes s p'.toks r') : p = p' := by
  have := (lexes_det h h').1
  exact (C67_unambiguous (toks := p.toks) (rest := []) (rest' := []) ⟨by simp, by simp⟩ ⟨by simp [this], by simp⟩).1

/-- C69. A string is parsed as a module path without an error exactly if it spells one (characters from 0x80 are negative in C: 0xFF is EOF). -/
theorem C69_string (s : Str) (hff : (0xFF : Byte) ∉ s) (p : Option Text.Path) :
    FbleParseModulePathString s p true ↔ ∃ (sp : SPath) (r : Str), Lexes s sp.toks r ∧ p = some sp.path := by
  obtain ⟨ts, l, r, h1, h2⟩ := tokens_of true s (fun _ => hff)
  constructor
  · rintro ⟨ts', l', h3, h4⟩
    rw [h1] at h3
    cases h3
    obtain ⟨sp, rest, rfl, h5, h6⟩ := (C69_no_error ts p).mp h4
    have := atEnd_nil h2 rfl h5
    subst this
    exact ⟨sp, r, by simpa using h2, h6⟩
  · rintro ⟨sp, r', h3, rfl⟩
    obtain ⟨rfl, rfl⟩ := lexes_det h2 h3
    exact ⟨_, _, h1, (C69_no_error _ _).mpr ⟨sp, [], by simp, by simp [AtEnd], rfl⟩⟩

/-! ### C54: printed module paths parse back -/

/-- The path as it is written. -/
def written (n : Text.Name) (p : Text.Path) : SPath := p.foldl (fun sp n => .slash sp n.str) (.word n.str)

theorem written_inner (n : Text.Name) (p : Text.Path) : (written n p).inner = .word n.str :: p.flatMap fun n => [P '/', .word n.str] := by
  have : ∀ (p : Text.Path) (sp : SPath), (p.foldl (fun sp (n : Text.Name) => SPath.slash sp n.str) sp).inner = sp.inner ++ p.flatMap fun n => [P '/', .word n.str] := by
    intro p
    induction p with
    | nil => simp
    | cons m p ih => intro sp; rw [List.foldl_cons, ih]; simp [SPath.inner]
  simp [written, this, SPath.inner]

theorem written_path (n : Text.Name) (p : Text.Path) : (written n p).path = (n :: p).map fun n => ⟨toCStr n.str, .normal⟩ := by
  have : ∀ (p : Text.Path) (sp : SPath), (p.foldl (fun sp (n : Text.Name) => SPath.slash sp n.str) sp).path =
      sp.path ++ p.map fun n => ⟨toCStr n.str, .normal⟩ := by
    intro p
    induction p with
    | nil => simp
    | cons m p ih => intro sp; rw [List.foldl_cons, ih]; simp [SPath.path]
  simp [written, this, SPath.path]

theorem blank_none {b : Byte} {t : Str} (h : ¬ Text.Spec.White b ∧ b ≠ ch '#') : Blank (b :: t) (b :: t) :=
  .done (by intro x hx; cases hx; exact h)

theorem lexes_printed (p : Text.Path) (hp : ∀ n ∈ p, n.str ≠ [] ∧ ∀ b ∈ n.str, WordChar b) :
    Lexes (p.flatMap (fun n => ch '/' :: n.str) ++ [ch '%']) ((p.flatMap fun n => [P '/', .word n.str]) ++ [P '%']) [] := by
  induction p with
  | nil =>
    refine .next (blank_none ⟨by decide, by decide⟩) (.punct (by decide)) (by simp) (.stop (t := []) (.done (by simp)) .eof)
  | cons n p ih =>
    obtain ⟨hne, hw⟩ := hp n (by simp)
    have ih := ih fun m hm => hp m (by simp [hm])
    simp only [List.flatMap_cons, List.cons_append, List.append_assoc]
    refine .next (blank_none ⟨by decide, by decide⟩) (.punct (by decide)) (by simp) ?_
    refine .next (.done ?_) (.plain hne hw ?_) (by simp) ?_
    · intro b hb
      cases hs : n.str with
      | nil => exact absurd hs hne
      | cons b' w =>
        rw [hs] at hb
        cases hb
        have := hw b (by simp [hs])
        exact ⟨this.2.1, this.2.2.2.2⟩
    · cases p with
      | nil => rintro b ⟨⟩; decide
      | cons n' p => rintro b ⟨⟩; decide
    · simpa using ih

/-- C54. The text printed for a nonempty module path whose names are unquoted words, passed to
FbleParseModulePath, gives that module path back, without an error. -/
theorem C54_path_roundtrip (p : Text.Path) (hne : p ≠ [])
    (hp : ∀ n ∈ p, n.space = .normal ∧ n.str ≠ [] ∧ ∀ b ∈ n.str, WordChar b ∧ b ≠ 0xFF) :
    FbleParseModulePathString (Text.printPath p) (some p) true := by
  have hff : (0xFF : Byte) ∉ Text.printPath p := by
    have e : Text.printPath p = p.flatMap (fun n => ch '/' :: n.str) ++ [ch '%'] := by
      cases p with
      | nil => exact absurd rfl hne
      | cons n p => simp [Text.printPath]
    simp only [e, List.mem_append, List.mem_flatMap, List.mem_cons, not_or]
    refine ⟨?_, by decide⟩
    rintro ⟨m, hm, h | h⟩
    · exact absurd h (by decide)
    · exact ((hp m hm).2.2 _ h).2 rfl
  rw [C69_string _ hff]
  cases p with
  | nil => exact absurd rfl hne
  | cons n p =>
    refine ⟨written n p, [], ?_, ?_⟩
    · have := lexes_printed (n :: p) (fun m hm => ⟨(hp m hm).2.1, fun b hb => ((hp m hm).2.2 b hb).1⟩)
      have h2 : (written n p).toks = ((n :: p).flatMap fun n => [P '/', .word n.str]) ++ [P '%'] := by
        simp [SPath.toks, written_inner]
      rw [h2]
      simpa [Text.printPath] using this
    · rw [written_path]
      have : ((n :: p).map fun n => (⟨toCStr n.str, .normal⟩ : Text.Name)) = n :: p := by
        conv => rhs; rw [← List.map_id (n :: p)]
        apply List.map_congr_left
        intro m hm
        obtain ⟨h1, -, h3⟩ := hp m hm
        rw [Text.toCStr_eq fun h => (h3 0 h).1.1 rfl]
        cases m
        simp only at h1
        subst h1
        rfl
      rw [this]

example : FbleParseModulePathString (Text.printPath [⟨[ch 'A'], .normal⟩, ⟨[ch 'b', ch '0'], .normal⟩])
    (some [⟨[ch 'A'], .normal⟩, ⟨[ch 'b', ch '0'], .normal⟩]) true :=
  C54_path_roundtrip _ (by simp) (by
    intro n hn
    simp at hn
    rcases hn with rfl | rfl
    · exact ⟨rfl, by simp, by decide⟩
    · exact ⟨rfl, by simp, by decide⟩)

/-! ### What goes wrong -/

/-- fble-load.h says that FbleParse returns NULL in case of error; but it returns the program `x;` for the text `x;;`, after reporting the error. -/
theorem C67_violated : FbleParse [.word [ch 'x'], P ';', P ';'] (some (.var ⟨['x'], false⟩)) [] false := by
  have hp : Parses [.word [ch 'x'], P ';', P ';'] (.expr (.var (.normal [ch 'x']))) [P ';'] := by
    refine ⟨rfl, ?_⟩
    intro t ht
    cases ht
    decide
  obtain ⟨deps, ok, h1, h2, h3⟩ := parse_program hp (e := .var ⟨['x'], false⟩) rfl (by decide +kernel)
  subst h2
  have : ok = false := by
    cases ok with
    | false => rfl
    | true => exact absurd (h3.mp rfl _ rfl) (by decide)
  subst this
  exact h1

/-- fble-module-path.h says that FbleParseModulePath returns NULL in case of error; but it returns a path for `/x%` followed by anything. -/
theorem C69_violated (rest : List Token) (h : ¬ AtEnd rest) :
    FbleParseModulePath ([P '/', .word [ch 'x'], P '%'] ++ rest) (some [⟨[ch 'x'], .normal⟩]) false := by
  obtain ⟨ok, h1, h2⟩ := parse_path (.word [ch 'x']) rest
  have : ok = false := by
    cases ok with
    | false => rfl
    | true => exact absurd (h2.mp rfl) h
  subst this
  exact h1

/-- C67. A program that needs too much stack is refused. -/
theorem C67_too_deep {toks s rest r d ok} (h : Parses toks s rest) (hs : 9998 ≤ s.height) (hr : FbleParse toks r d ok) : r = none ∧ ok = false := by
  constructor
  · cases r with
    | none => rfl
    | some e =>
      obtain ⟨s', rest', h1, h2, h3⟩ := program_of_parse hr
      obtain ⟨rfl, -⟩ := C67_unambiguous h h1
      exact absurd h3 (Nat.not_lt.mpr hs)
  · cases ok with
    | false => rfl
    | true =>
      obtain ⟨s', rest', e, h1, h2, h3, h4⟩ := (C67_no_error toks).mp ⟨_, _, hr⟩
      have hb : ∀ t ∈ rest'.head?, ¬ Begins t := by
        intro t ht hbt
        rw [h2 t ht] at hbt
        exact hbt
      obtain ⟨rfl, -⟩ := C67_unambiguous h ⟨h1, hb⟩
      omega

/-- The program `% x = y; ... % x = y; x;` with `n` definitions. -/
def manyLets : Nat → SStmt
  | 0 => .expr (.var (.normal [ch 'x']))
  | n + 1 => .letE (.kind (.n .basic) (.normal [ch 'x']) (.var (.normal [ch 'y']))) (manyLets n)

theorem manyLets_ast (n : Nat) : ∃ e, (manyLets n).ast = some e := by
  induction n with
  | zero => exact ⟨_, rfl⟩
  | succ n ih =>
    obtain ⟨e, he⟩ := ih
    exact ⟨_, by simp [manyLets, SStmt.ast, SBinds.ast, SExpr.ast, he]; rfl⟩

theorem manyLets_height (n : Nat) : 2 * n + 1 ≤ (manyLets n).height := by
  induction n with
  | zero => decide
  | succ n ih =>
    simp only [manyLets, SStmt.height, depth, depthSeq]
    omega

/-- Programs of the language can be refused for being long: one with 4999 definitions, one after the other, is. -/
theorem C67_stack_violated : ∃ p : SStmt, (∃ e, p.ast = some e) ∧ ∀ r d ok, FbleParse p.toks r d ok → r = none := by
  refine ⟨manyLets 4999, manyLets_ast _, fun r d ok h => ?_⟩
  have := manyLets_height 4999
  exact (C67_too_deep (s := manyLets 4999) (rest := []) ⟨by simp, by simp⟩ (by omega) h).1

/-! ### Examples -/

/-- `@(a: /m%, b: f(x)).?(t: {% y = z; y;}, : w);` -/
def exampleProgram : SStmt :=
  let v (c : Char) : SExpr := .var (.normal [ch c])
  .expr (.selectDefault
    (.struct (.some (.more (.one (.colon (.normal [ch 'a']) (.modulePath (.word [ch 'm'])))) (.colon (.normal [ch 'b']) (.apply (v 'f') (.some (.one (v 'x'))))))))
    (.one (.mk (.normal [ch 't']) (.block (.braces (.letE (.kind (.n .basic) (.normal [ch 'y']) (v 'z')) (.expr (v 'y')))))))
    (v 'w'))

example : ∃ e, FbleParse exampleProgram.toks (some e) [[⟨[ch 'm'], .normal⟩]] true := by
  have hp : Parses exampleProgram.toks exampleProgram [] := ⟨by simp, by simp⟩
  have he : exampleProgram.ast.isSome = true := by decide +kernel
  obtain ⟨e, he⟩ := Option.isSome_iff_exists.mp he
  obtain ⟨deps, ok, h1, h2, h3⟩ := parse_program hp he (by decide +kernel)
  rw [h3.mpr (by simp [AtEnd])] at h1
  have : deps = [[⟨[ch 'm'], .normal⟩]] := by rw [h2]; decide +kernel
  rw [this] at h1
  exact ⟨e, h1⟩

/-- `x y` is refused. -/
example : FbleParse [.word [ch 'x'], .word [ch 'y']] none [] false := by
  refine ⟨.syntaxError ⟨none, []⟩, _, ⟨_, .head rfl (.head rfl (.head rfl (.head rfl (.head rfl (.head rfl (.head rfl (.head rfl (.refl _)))))))), ?_⟩, rfl, rfl, rfl, rfl⟩
  rfl

end Verif.Parse
