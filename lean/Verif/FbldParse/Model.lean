import Verif.Fbld.Markup
/-!
# Model of the fbld parser (fbld/parse.c)

The functions of the parser read the input only through `Char`, `Is`, `IsEnd` and `Advance`, the
column and the indent.  They are written for any implementation of these (`Lexer`); `Lex.lexer` is the
one of the program.

Not modelled: locations other than the column, the text of messages, files that cannot be opened
(the program aborts), and the memory of the buffers.  A character is a byte.
-/
namespace Verif.FbldParse
open Fbld (Str Markup)

/-- fbld/parse.c:17 `END` -/
def END : Char := Char.ofNat 3

/-! ### The lexer -/

/-- fbld/parse.c:29-39 `Lex`, with the contents of the files that are not read yet, and the rest of
the file that is open. -/
structure Lex where
  inputs : List Str
  fin : Option Str
  column : Nat
  indent : Nat
  next : Str

/-- fbld/parse.c:82-110: opens files until there is a character. -/
def openNext (l : Lex) : List Str → Char × Lex
  | [] => (END, { l with inputs := [] })
  | [] :: fs => openNext { l with fin := some [], column := 1 } fs
  | (c :: r) :: fs => (c, { l with inputs := fs, fin := some r, column := 1 })

/-- fbld/parse.c:75-111 `GetC`. -/
def getC (l : Lex) : Char × Lex :=
  match l.fin with
  | some (c :: r) => (c, { l with fin := some r })
  | _ => if l.next.isEmpty then openNext l l.inputs else (END, l)

/-- fbld/parse.c:131-140: the column of the character at an index of the buffer. -/
def columnAt : Nat → Str → Nat → Nat
  | col, _, 0 => col
  | col, [], _ + 1 => col
  | col, c :: cs, i + 1 => columnAt (if c = '\n' then 1 else col + 1) cs i

/-- fbld/parse.c:143-157: makes sure that there is a character at an index of the buffer, if there is any. -/
def fetch (l : Lex) (i : Nat) : Bool × Lex :=
  if l.next.length = i then
    let (c, l) := getC l
    if c = END then (false, l) else (true, { l with next := l.next ++ [c] })
  else (true, l)

/-- fbld/parse.c:142-175: the loop of `NextFetched`; the number is `indent + 1 - col`, by which the
column is too small. -/
def fetchLoop : Nat → Lex → Nat → Char × Nat × Lex
  | short, l, i =>
    let (found, l) := fetch l i
    if !found then (END, i, l)
    else
      let c := (l.next[i]?).getD END
      match short with
      | 0 => (c, i, l)
      | short + 1 =>
        if c = ' ' then fetchLoop short l (i + 1)
        else if c = '\n' then ('\n', i, l)
        else (END, i, l)

/-- fbld/parse.c:123-176 `NextFetched`.  The callers meet the assertion at the start: the index is 0 or
follows the index of a character that was fetched. -/
def nextFetched (l : Lex) (i : Nat) : Char × Nat × Lex :=
  fetchLoop (l.indent + 1 - columnAt l.column l.next i) l i

/-- fbld/parse.c:184-188 `Char`. -/
def lexChar (l : Lex) : Char × Lex := ((nextFetched l 0).1, (nextFetched l 0).2.2)

/-- fbld/parse.c:199-215 `Is`. -/
def lexIs : Str → Lex → Nat → Bool × Lex
  | [], l, _ => (true, l)
  | p :: ps, l, i =>
    let (c, i, l) := nextFetched l i
    if c = END then (false, l)
    else if p ≠ c then (false, l)
    else lexIs ps l (i + 1)

/-- fbld/parse.c:242-253: the column after some characters. -/
def columnAfter : Nat → Str → Nat
  | col, [] => col
  | col, c :: cs => columnAfter (if c = '\n' then 1 else col + 1) cs

/-- fbld/parse.c:235-256 `Advance`; `none` is a failed assertion. -/
def lexAdvance (l : Lex) : Option Lex :=
  let (c, i, l) := nextFetched l 0
  if c = END then none
  else some { l with column := columnAfter l.column (l.next.take (i + 1)), next := l.next.drop (i + 1) }

/-- What the functions of the parser use of the lexer. -/
structure Lexer (σ : Type) where
  char : σ → Char × σ
  is : Str → σ → Bool × σ
  advance : σ → Option σ
  column : σ → Nat
  indent : σ → Nat
  setIndent : Nat → σ → σ

def Lex.lexer : Lexer Lex where
  char := lexChar
  is p l := lexIs p l 0
  advance := lexAdvance
  column := Lex.column
  indent := Lex.indent
  setIndent n l := { l with indent := n }

/-! ### The parser -/

/-- The result of a function: a value, an error with a message, a failed assertion; `more` means that the
given number of steps was too small. -/
inductive PRes (α : Type) where
  | ok (a : α)
  | error
  | crash
  | more

/-- A function of the parser. -/
def P (σ α : Type) := σ → PRes (α × σ)

def P.bind {σ α β : Type} (m : P σ α) (f : α → P σ β) : P σ β := fun s =>
  match m s with
  | .ok (a, s) => f a s
  | .error => .error
  | .crash => .crash
  | .more => .more

instance {σ : Type} : Monad (P σ) where
  pure a := fun s => .ok (a, s)
  bind := P.bind

def fail {σ α : Type} : P σ α := fun _ => .error
def abort {σ α : Type} : P σ α := fun _ => .crash
def more {σ α : Type} : P σ α := fun _ => .more

section
variable {σ : Type} (L : Lexer σ)

/-- A call of `Char`. -/
def char : P σ Char := fun s => .ok (L.char s)
/-- A call of `Is`. -/
def is (p : Str) : P σ Bool := fun s => .ok (L.is p s)
/-- fbld/parse.c:225-228 `IsEnd`. -/
def isEnd : P σ Bool := do return (← char L) = END
/-- A call of `Advance`. -/
def advance : P σ Unit := fun s =>
  match L.advance s with
  | some s => .ok ((), s)
  | none => .crash
/-- `lex->loc.column` -/
def column : P σ Nat := fun s => .ok (L.column s, s)
/-- `lex->indent++` -/
def deeper : P σ Unit := fun s => .ok ((), L.setIndent (L.indent s + 1) s)
/-- `lex->indent--` -/
def shallower : P σ Unit := fun s => .ok ((), L.setIndent (L.indent s - 1) s)

/-- fbld/parse.c:264-267 `IsNameChar`, in the C locale. -/
def isNameChar (c : Char) : Bool := c = '_' || c.isAlphanum

/-- The string of a text: what is before the first NUL (fbld/markup.c:56-62 `FbldNewText`). -/
def cstr (s : Str) : Str := s.takeWhile (· ≠ '\x00')

/-- fbld/parse.c:278-293 `ParseName`: the loop. -/
def nameLoop : Nat → Str → P σ Str
  | 0, _ => more
  | n + 1, chars => do
    if isNameChar (← char L) then
      let c ← char L
      advance L
      nameLoop n (chars ++ [c])
    else return cstr chars

/-- fbld/parse.c:317-334: the loop over the characters of a literal argument. -/
def literalLoop : Nat → Nat → Str → P σ Str
  | 0, _, _ => more
  | n + 1, nest, chars => do
    if nest > 0 || !(← is L ['}']) then
      if ← isEnd L then fail
      else
        let nest := if ← is L ['{'] then nest + 1 else nest
        let nest := if ← is L ['}'] then nest - 1 else nest
        let c ← char L
        advance L
        literalLoop n nest (chars ++ [c])
    else return chars

/-- fbld/parse.c:45-49 `InlineContext`. -/
inductive Context where
  | inlineArg
  | implicitBlock
  | sameLineArg
  deriving DecidableEq

/-- fbld/parse.c:407-430: is this the end of the inline text? -/
def inlineEnd : Context → P σ Bool
  | .inlineArg => do
    if ← is L [']'] then return true
    else if ← isEnd L then fail
    else return false
  | .sameLineArg => do
    if ← is L ['\n'] then return true
    else if ← is L [' ', '@', '\n'] then return true
    else is L [' ', '@', '@', '\n']
  | .implicitBlock => do
    if (← column L) = 1 then
      if ← is L ['\n'] then return true
      else isEnd L
    else isEnd L

/-- fbld/parse.c:435-440, 476-480: the characters collected so far as plain text. -/
def flush (markups : List Markup) (chars : Str) : List Markup :=
  if chars.isEmpty then markups else markups ++ [.plain (cstr chars)]

/-- fbld/parse.c:483-488: a sequence, but not one of a single element. -/
def sequence : List Markup → Markup
  | [m] => m
  | ms => .seq ms

/-- fbld/parse.c:455-467: the character that an escape sequence stands for. -/
def escape (c : Char) : Option Char :=
  if c = '@' then some '@'
  else if c = '[' then some '['
  else if c = '\\' then some '\\'
  else if c = ']' then some ']'
  else if c = 'n' then some '\n'
  else none

/-- fbld/parse.c:550-553: collects the characters until the end of the input. -/
def restLoop : Nat → Str → P σ Str
  | 0, _ => more
  | n + 1, chars => do
    if ← isEnd L then return chars
    else
      let c ← char L
      advance L
      restLoop n (chars ++ [c])

/-- fbld/parse.c:557-561: strips trailing blank lines; for the characters in reverse order. -/
def stripBlank : Str → Str
  | '\n' :: '\n' :: cs => stripBlank ('\n' :: cs)
  | cs => cs

/-- fbld/parse.c:632, 655, 670, 692: skips blank lines. -/
def skipBlank : Nat → P σ Unit
  | 0 => more
  | n + 1 => do
    if ← is L ['\n'] then
      advance L
      skipBlank n
    else return ()

mutual
/-- fbld/parse.c:307-356 `ParseInlineArgs`; the arguments before are given. -/
def parseInlineArgs : Nat → List Markup → P σ (List Markup)
  | 0, _ => more
  | n + 1, args => do
    let open1 ← is L ['[']
    let open2 ← (if open1 then return true else is L ['{'] : P σ Bool)
    if !open2 then return args
    else if ← is L ['{'] then
      advance L
      let chars ← literalLoop L n 0 []
      advance L
      parseInlineArgs n (args ++ [.plain (cstr chars)])
    else if ← is L ['['] then
      advance L
      let arg ← inlineLoop n .inlineArg [] []
      if !(← is L [']']) then abort
      else
        advance L
        parseInlineArgs n (args ++ [arg])
    else parseInlineArgs n args

/-- fbld/parse.c:369-382 `ParseInlineCommand`. -/
def parseInlineCommand : Nat → P σ Markup
  | 0 => more
  | n + 1 => do
    let name ← nameLoop L n []
    let args ← parseInlineArgs n []
    return .cmd name args

/-- fbld/parse.c:394-491 `ParseInline`: the loop, with what was parsed so far. -/
def inlineLoop : Nat → Context → List Markup → Str → P σ Markup
  | 0, _, _, _ => more
  | n + 1, context, markups, chars => do
    if ← inlineEnd L context then return sequence (flush markups chars)
    else if ← is L ['@'] then
      advance L
      let command ← parseInlineCommand n
      inlineLoop n context (flush markups chars ++ [command]) []
    else if ← is L ['\\'] then
      advance L
      match escape (← char L) with
      | none => fail
      | some c =>
        advance L
        inlineLoop n context markups (chars ++ [c])
    else
      let c ← char L
      advance L
      inlineLoop n context markups (chars ++ [c])
end

mutual
/-- fbld/parse.c:504-612 `ParseBlockCommand`: the loop, with the arguments so far. -/
def commandLoop : Nat → List Markup → P σ (List Markup)
  | 0, _ => more
  | n + 1, args => do
    let args ← parseInlineArgs L n args
    -- Same line arg.
    let args ← (do
      if ← is L [' '] then
        if ← is L [' ', '@', '\n'] then return args
        else if ← is L [' ', '@', '@', '\n'] then return args
        else
          advance L
          let arg ← inlineLoop L n .sameLineArg [] []
          return args ++ [arg]
      else return args : P σ (List Markup))
    -- Same line final arg.
    if ← is L [' ', '@', '@', '\n'] then
      advance L; advance L; advance L; advance L
      let final ← parseBlock n
      return args ++ [final]
    else
      -- Next line literal arg.
      let args ← (do
        if ← is L [' ', '@', '\n'] then
          advance L; advance L; advance L
          deeper L
          let chars ← restLoop L n []
          shallower L
          return args ++ [.plain (cstr (stripBlank chars.reverse).reverse)]
        else if ← is L ['\n'] then
          advance L
          return args
        else fail : P σ (List Markup))
      -- Next line arg.
      let args ← (do
        if ← is L [' '] then
          deeper L
          let arg ← parseBlock n
          shallower L
          return args ++ [arg]
        else return args : P σ (List Markup))
      -- Next line final arg.
      if ← is L ['@', '@', '\n'] then
        advance L; advance L; advance L
        let final ← parseBlock n
        return args ++ [final]
      else
        -- Continuation.
        let c1 ← is L ['@', '\n']
        let c2 ← (if c1 then return true else is L ['@', ' '] : P σ Bool)
        let c3 ← (if c2 then return true else is L ['@', '['] : P σ Bool)
        let c4 ← (if c3 then return true else is L ['@', '{'] : P σ Bool)
        if c4 then
          advance L
          commandLoop n args
        else return args

/-- fbld/parse.c:623-696 `ParseBlock`. -/
def parseBlock : Nat → P σ Markup
  | 0 => more
  | n + 1 => do
    skipBlank L n
    blockLoop n []

/-- fbld/parse.c:634-693: the loop of `ParseBlock`, with what was parsed so far. -/
def blockLoop : Nat → List Markup → P σ Markup
  | 0, _ => more
  | n + 1, markups => do
    if ← isEnd L then return .seq markups
    else if ← is L ['@', '@'] then
      advance L
      let arg ← inlineLoop L n .implicitBlock [] []
      skipBlank L n
      blockLoop n (markups ++ [.cmd ['.', 'b', 'l', 'o', 'c', 'k'] [arg]])
    else if ← is L ['@'] then
      advance L
      let name ← nameLoop L n []
      let args ← commandLoop n []
      skipBlank L n
      blockLoop n (markups ++ [.cmd name args])
    else
      let arg ← inlineLoop L n .implicitBlock [] []
      skipBlank L n
      blockLoop n (markups ++ [.cmd ['.', 'b', 'l', 'o', 'c', 'k'] [arg]])
end

end

/-- The value that a function returns. -/
def PRes.value {α σ : Type} : PRes (α × σ) → PRes α
  | .ok (a, _) => .ok a
  | .error => .error
  | .crash => .crash
  | .more => .more

/-- fbld/parse.c:699-719 `FbldParse`, for the contents of the files. -/
def fbldParse (n : Nat) (files : List Str) : PRes Markup :=
  (parseBlock Lex.lexer n ⟨files, none, 0, 0, []⟩).value

end Verif.FbldParse
