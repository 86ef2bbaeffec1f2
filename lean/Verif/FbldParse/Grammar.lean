import Verif.FbldParse.Indent
/-!
# The syntax of fbld documents

What the manual says about the syntax (fbld/fbld.fbld:133-414), as trees with the text that they are
written as (`print`) and the document that they mean (`value`).

Only documents that are written in one way of several are included in some places: commands have a name,
paragraphs do not start with a space.
-/
namespace Verif.FbldParse
open Fbld (Str Markup)

/-! ### Inline structured text (fbld/fbld.fbld:145-213) -/

mutual
/-- Inline structured text: characters, escape sequences and commands. -/
inductive Text where
  | nil
  | chr (c : Char) (rest : Text)
  | esc (c : Char) (rest : Text)
  | cmd (name : Str) (args : Args) (rest : Text)

/-- Inline args and inline literal args. -/
inductive Args where
  | nil
  | inline (t : Text) (rest : Args)
  | literal (s : Str) (rest : Args)
end

mutual
/-- How it is written. -/
def Text.print : Text → Str
  | .nil => []
  | .chr c t => c :: t.print
  | .esc c t => '\\' :: (if c = '\n' then 'n' else c) :: t.print
  | .cmd name args t => '@' :: (name ++ (args.print ++ t.print))
def Args.print : Args → Str
  | .nil => []
  | .inline t as => '[' :: (t.print ++ ']' :: as.print)
  | .literal s as => '{' :: (s ++ '}' :: as.print)
end

/-- Characters between commands are one plain text, if there are any. -/
def plainRun (s : Str) : List Markup := if s = [] then [] else [.plain s]

/-- A single element stands for itself. -/
def together : List Markup → Markup
  | [m] => m
  | ms => .seq ms

mutual
/-- What it means: the plain texts and commands, where characters come before. -/
def Text.pieces : Str → Text → List Markup
  | s, .nil => plainRun s
  | s, .chr c t => t.pieces (s ++ [c])
  | s, .esc c t => t.pieces (s ++ [c])
  | s, .cmd name args t => plainRun s ++ .cmd name args.values :: t.pieces []
def Args.values : Args → List Markup
  | .nil => []
  | .inline t as => together (t.pieces []) :: as.values
  | .literal s as => .plain s :: as.values
end

def Text.value (t : Text) : Markup := together (t.pieces [])

/-- A character that can be in a document. -/
def okChar (c : Char) : Bool := c ≠ '\x00' && c ≠ END

/-- The characters of command names: `[a-zA-Z0-9_]`. -/
def nameChar (c : Char) : Bool := c = '_' || (decide ('a' ≤ c) && decide (c ≤ 'z')) || (decide ('A' ≤ c) && decide (c ≤ 'Z')) || (decide ('0' ≤ c) && decide (c ≤ '9'))

def okName (s : Str) : Bool := !s.isEmpty && s.all nameChar

/-- Braces nest. -/
def balanced : Nat → Str → Bool
  | n, [] => n = 0
  | n, c :: s =>
    if c = '{' then balanced (n + 1) s
    else if c = '}' then match n with
      | 0 => false
      | n + 1 => balanced n s
    else balanced n s

/-- Characters that need not be escaped, in a place where inline text is. In an inline arg `]` ends the text, in a
same line arg a newline, in a paragraph an empty line; `start` says that the character is the first of its line. -/
def okChr (context : Context) (start : Bool) (c : Char) : Bool :=
  okChar c && c ≠ '@' && c ≠ '\\' && match context with
    | .inlineArg => c ≠ ']'
    | .sameLineArg => c ≠ '\n'
    | .implicitBlock => !start || c ≠ '\n'

/-- What follows a command is not taken for another argument, or for a part of the name. -/
def follows (args : Args) : Text → Bool
  | .chr c _ => c ≠ '[' && c ≠ '{' && match args with
    | .nil => !nameChar c
    | _ => true
  | _ => true

mutual
def Text.ok (context : Context) : Bool → Text → Bool
  | _, .nil => true
  | start, .chr c t => okChr context start c && t.ok context (c = '\n')
  | _, .esc c t => (c = '\\' || c = '@' || c = '[' || c = ']' || c = '\n') && t.ok context false
  | _, .cmd name args t => okName name && args.ok && follows args t && t.ok context false
def Args.ok : Args → Bool
  | .nil => true
  | .inline t as => t.ok .inlineArg false && as.ok
  | .literal s as => s.all okChar && balanced 0 s && as.ok
end

/-! ### Block structured text (fbld/fbld.fbld:215-410) -/

mutual
/-- Paragraphs and commands, with the number of blank lines after them. -/
inductive Doc where
  | nil
  /-- A paragraph, which starts with an additional `@` if it is explicit. -/
  | para (explicit : Bool) (t : Text) (gap : Nat) (rest : Doc)
  | cmd (name : Str) (seg : Seg) (gap : Nat) (rest : Doc)

/-- The arguments of a block command after its name, or after the `@` of a continuation: inline arguments, a same
line argument and more. -/
inductive Seg where
  | seg (args : Args) (same : Option Text) (tail : Tail)

/-- The end of the line and an argument on the next lines. -/
inductive Tail where
  | line (more : More)
  | next (doc : Doc) (more : More)
  | literal (s : Str) (more : More)
  /-- A same line final arg, after some blank lines. -/
  | final (gap : Nat) (doc : Doc)

/-- The end of the command, a next line final arg or a continuation. -/
inductive More where
  | done
  | final (gap : Nat) (doc : Doc)
  | again (s : Seg)
end

/-- Every line with a space before it; except for empty lines. -/
def indent : Bool → Str → Str
  | _, [] => []
  | true, c :: s => if c = '\n' then c :: indent true s else ' ' :: c :: indent false s
  | false, c :: s => c :: indent (c = '\n') s

/-- A same line arg. -/
def samePrint : Option Text → Str
  | none => []
  | some t => ' ' :: t.print
def sameValues : Option Text → List Markup
  | none => []
  | some t => [t.value]
def sameOk : Option Text → Bool
  | none => true
  | some t => t.ok .sameLineArg false

def newlines (n : Nat) : Str := List.replicate n '\n'

mutual
/-- How it is written. -/
def Doc.print : Doc → Str
  | .nil => []
  | .para explicit t gap d => (if explicit then ['@'] else []) ++ (t.print ++ (newlines gap ++ d.print))
  | .cmd name s gap d => '@' :: (name ++ (s.print ++ (newlines gap ++ d.print)))
def Seg.print : Seg → Str
  | .seg args same tail => args.print ++ (samePrint same ++ tail.print)
def Tail.print : Tail → Str
  | .line more => '\n' :: more.print
  | .next d more => '\n' :: (indent true d.print ++ more.print)
  | .literal s more => ' ' :: '@' :: '\n' :: (indent true s ++ more.print)
  | .final gap d => ' ' :: '@' :: '@' :: '\n' :: (newlines gap ++ d.print)
def More.print : More → Str
  | .done => []
  | .final gap d => '@' :: '@' :: '\n' :: (newlines gap ++ d.print)
  | .again s => '@' :: s.print
end

mutual
/-- What it means. -/
def Doc.values : Doc → List Markup
  | .nil => []
  | .para _ t _ d => .cmd ".block".toList [t.value] :: d.values
  | .cmd name s _ d => .cmd name s.values :: d.values
def Seg.values : Seg → List Markup
  | .seg args same tail => args.values ++ (sameValues same ++ tail.values)
def Tail.values : Tail → List Markup
  | .line more => more.values
  | .next d more => .seq d.values :: more.values
  | .literal s more => .plain s :: more.values
  | .final _ d => [.seq d.values]
def More.values : More → List Markup
  | .done => []
  | .final _ d => [.seq d.values]
  | .again s => s.values
end

def Doc.value (d : Doc) : Markup := .seq d.values

/-- The last character is a newline. -/
def Text.endsLine : Text → Bool
  | .nil => false
  | .chr c .nil => c = '\n'
  | .chr _ t => t.endsLine
  | .esc _ t => t.endsLine
  | .cmd _ _ t => t.endsLine

/-- A paragraph does not start with a blank, or with a command unless it is explicit. -/
def okStart (explicit : Bool) : Text → Bool
  | .chr c _ => !explicit && c ≠ ' ' && c ≠ '\n'
  | .esc _ _ => !explicit
  | .cmd _ _ _ => explicit
  | .nil => false

/-- Complete lines of literal text, where the last is not blank. -/
def okLiteral (s : Str) : Bool :=
  s.all okChar && match s.reverse with
    | '\n' :: c :: _ => c ≠ '\n'
    | ['\n'] => true
    | _ => false

mutual
/-- There is a final arg. -/
def Seg.isFinal : Seg → Bool
  | .seg _ _ tail => tail.isFinal
def Tail.isFinal : Tail → Bool
  | .line more => more.isFinal
  | .next _ more => more.isFinal
  | .literal _ more => more.isFinal
  | .final _ _ => true
def More.isFinal : More → Bool
  | .done => false
  | .final _ _ => true
  | .again s => s.isFinal
end

def Doc.isNil : Doc → Bool
  | .nil => true
  | _ => false

mutual
def Doc.ok : Doc → Bool
  | .nil => true
  | .para explicit t gap d => t.ok .implicitBlock (!explicit) && t.endsLine && okStart explicit t && (decide (0 < gap) || d.isNil) && d.ok
  | .cmd name s _ d => okName name && s.ok && (!s.isFinal || d.isNil) && d.ok
def Seg.ok : Seg → Bool
  | .seg args same tail => args.ok && sameOk same && tail.ok
def Tail.ok : Tail → Bool
  | .line more => more.ok
  | .next d more => d.ok && !d.isNil && more.ok
  | .literal s more => okLiteral s && more.ok
  | .final _ d => d.ok
def More.ok : More → Bool
  | .done => true
  | .final _ d => d.ok
  | .again s => s.ok
end

end Verif.FbldParse
