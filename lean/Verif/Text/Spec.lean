import Verif.Text.Model
/- Specifications for the text level properties, not using the functions of the model. -/
namespace Verif.Text.Spec
open Verif.Text (Byte Str ch Token)

/-- Line number of offset `k`: one more than the newlines before it. -/
def lineOf (s : Str) (k : Nat) : Nat := 1 + (s.take k).count (ch '\n')

/-- Column of offset `k`: one more than the characters between the last newline before it (or the
start) and it. -/
def colOf (s : Str) (k : Nat) : Nat :=
  1 + ((s.take k).reverse.takeWhile (fun b => b ≠ ch '\n')).length

/-- Blank, tab, newline, vertical tab, form feed, carriage return. -/
def White (b : Byte) : Prop := b ∈ ([32, 9, 10, 11, 12, 13] : List Byte)

/-- The single character tokens of the language. -/
def Punct (b : Byte) : Prop :=
  b ∈ ['(', ')', '{', '}', '[', ']', ';', ',', ':', '?', '=', '.', '<', '>', '+', '*', '-', '!',
       '$', '@', '~', '&', '|', '%', '/', '^'].map ch

/-- Characters allowed in an unquoted word. -/
def WordChar (b : Byte) : Prop :=
  b ≠ 0 ∧ ¬ White b ∧ ¬ Punct b ∧ b ≠ ch '\'' ∧ b ≠ ch '#'

instance (b : Byte) : Decidable (White b) := inferInstanceAs (Decidable (_ ∈ _))
instance (b : Byte) : Decidable (Punct b) := inferInstanceAs (Decidable (_ ∈ _))
instance (b : Byte) : Decidable (WordChar b) := inferInstanceAs (Decidable (_ ∧ _))

/-- `t` starts with white space and comments after which `r` remains, `r` starting with
neither. -/
inductive Blank : Str → Str → Prop where
  | done {t} : (∀ b ∈ t.head?, ¬ White b ∧ b ≠ ch '#') → Blank t t
  | space {b t r} : White b → Blank t r → Blank (b :: t) r
  | comment {body t r} : ch '\n' ∉ body → (∀ b ∈ t.head?, b = ch '\n') → Blank t r →
      Blank (ch '#' :: (body ++ t)) r

/-- A word with every quote doubled. -/
inductive Doubled : Str → Str → Prop where
  | nil : Doubled [] []
  | quote {w d} : Doubled w d → Doubled (ch '\'' :: w) (ch '\'' :: ch '\'' :: d)
  | other {b w d} : b ≠ ch '\'' → Doubled w d → Doubled (b :: w) (b :: d)

/-- `t` starts with the text of the given token, after which `r` remains. -/
inductive Lexeme : Str → Token → Str → Prop where
  /-- the end of the file -/
  | eof : Lexeme [] .end_ []
  /-- a NUL byte counts as the end of the input -/
  | nul {r} : Lexeme (0 :: r) .end_ r
  | punct {b r} : Punct b → Lexeme (b :: r) (.punct b) r
  | plain {w r} : w ≠ [] → (∀ b ∈ w, WordChar b) → (∀ b ∈ r.head?, ¬ WordChar b) →
      Lexeme (w ++ r) (.word w) r
  | quoted {w d r} : Doubled w d → (∀ b ∈ r.head?, b ≠ ch '\'') →
      Lexeme (ch '\'' :: (d ++ ch '\'' :: r)) (.word w) r
  /-- a quoted word ended by the end of the file -/
  | unterminated {w d} : Doubled w d → Lexeme (ch '\'' :: d) (.word w) []

/-- The token sequence of a text: `Lexes s ts r`, with `r` left unread after the end token. -/
inductive Lexes : Str → List Token → Str → Prop where
  | stop {s t r} : Blank s t → Lexeme t .end_ r → Lexes s [] r
  | next {s t u tok ts r} : Blank s t → Lexeme t tok u → tok ≠ .end_ → Lexes u ts r →
      Lexes s (tok :: ts) r

end Verif.Text.Spec

/-! ### Package path -/
namespace Verif.Text.Spec

/-- The package path without a trailing colon. -/
def stripColon (s : Str) : Str := if s.getLast? = some (ch ':') then s.dropLast else s

/-- `comps` are the colon separated components of `s`. -/
def Components (s : Str) (comps : List Str) : Prop :=
  comps ≠ [] ∧ (∀ c ∈ comps, ch ':' ∉ c) ∧ [ch ':'].intercalate comps = s

/-- The first of the candidates that exists. -/
def firstExisting (access : Str → Bool) (cands : List Str) : Option Str := cands.find? access

/-! ### Reading a make rule -/

/-- A backslash at the end of a line joins it with the next one. -/
def joinLines : Str → Str
  | [] => []
  | [b] => [b]
  | b :: c :: t =>
    if b = ch '\\' ∧ c = ch '\n' then ch ' ' :: joinLines t else b :: joinLines (c :: t)

/-- Words separated by blanks and newlines; `cur` is the word being read. -/
def wordsAux : Str → Str → List Str
  | cur, [] => if cur = [] then [] else [cur]
  | cur, b :: t =>
    if b = ch ' ' ∨ b = ch '\n' then (if cur = [] then [] else [cur]) ++ wordsAux [] t
    else wordsAux (cur ++ [b]) t

/-- The words of a make rule. -/
def ruleWords (s : Str) : List Str := wordsAux [] (joinLines s)

end Verif.Text.Spec
