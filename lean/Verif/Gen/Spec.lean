import Verif.Text.Model
/- The reading rules for C identifiers and for C and GNU assembler string literals. -/
namespace Verif.Gen.Spec
open Verif.Text (Byte Str ch)

def Letter (b : Byte) : Prop := (65 ≤ b ∧ b ≤ 90) ∨ (97 ≤ b ∧ b ≤ 122) ∨ b = 95
def Digit (b : Byte) : Prop := 48 ≤ b ∧ b ≤ 57

/-- A C identifier. -/
def Identifier (s : Str) : Prop :=
  (∃ b r, s = b :: r ∧ Letter b) ∧ ∀ b ∈ s, Letter b ∨ Digit b

/-- The character a trigraph `??b` stands for (C99 5.2.1.1). -/
def trigraph (b : Byte) : Option Byte :=
  if b = ch '=' then some (ch '#')
  else if b = ch '(' then some (ch '[')
  else if b = ch '/' then some (ch '\\')
  else if b = ch ')' then some (ch ']')
  else if b = ch '\'' then some (ch '^')
  else if b = ch '<' then some (ch '{')
  else if b = ch '!' then some (ch '|')
  else if b = ch '>' then some (ch '}')
  else if b = ch '-' then some (ch '~')
  else none

/-- Translation phase 1 of C99: trigraphs are replaced. -/
def phase1 : Str → Str
  | [] => []
  | [a] => [a]
  | [a, b] => [a, b]
  | a :: b :: c :: t =>
    if a = ch '?' ∧ b = ch '?' then
      match trigraph c with
      | some d => d :: phase1 t
      | none => a :: phase1 (b :: c :: t)
    else a :: phase1 (b :: c :: t)

/-- The simple escape sequences of C (C99 6.4.4.4). -/
def escapesC : List (Byte × Byte) :=
  [(ch 'a', 7), (ch 'b', 8), (ch 'f', 12), (ch 'n', 10), (ch 'r', 13), (ch 't', 9), (ch 'v', 11),
   (ch '"', 34), (ch '\\', 92), (ch '\'', 39), (ch '?', 63)]

/-- The escapes of GNU as strings (numeric ones left out). -/
def escapesAsm : List (Byte × Byte) :=
  [(ch 'b', 8), (ch 'f', 12), (ch 'n', 10), (ch 'r', 13), (ch 't', 9), (ch '"', 34), (ch '\\', 92)]

/-- The characters up to the closing quote, and the text after it. A line may not end inside the
literal. -/
def body (escapes : List (Byte × Byte)) : Str → Option (Str × Str)
  | [] => none
  | b :: t =>
    if b = ch '"' then some ([], t)
    else if b = ch '\n' then none
    else if b = ch '\\' then
      match t with
      | [] => none
      | e :: t => do
        let c ← escapes.lookup e
        let (s, r) ← body escapes t
        return (c :: s, r)
    else do
      let (s, r) ← body escapes t
      return (b :: s, r)

/-- Reading a literal: the opening quote, then the body. -/
def literal (escapes : List (Byte × Byte)) : Str → Option (Str × Str)
  | b :: t => if b = ch '"' then body escapes t else none
  | [] => none

/-- A C99 compiler reading source text that starts with a literal. -/
def readC (t : Str) : Option (Str × Str) := literal escapesC (phase1 t)

/-- GNU as reading text that starts with a literal. -/
def readAsm (t : Str) : Option (Str × Str) := literal escapesAsm t

/-- The string contains a trigraph. -/
def HasTrigraph (s : Str) : Prop :=
  ∃ a c b, s = a ++ ch '?' :: ch '?' :: b :: c ∧ (trigraph b).isSome

end Verif.Gen.Spec
