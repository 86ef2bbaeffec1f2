/-!
# fbld markup as seen by a user of fbld, and the meaning of the language

The meaning of documents, independent of how `fbld/eval.c` computes it: an environment-passing
interpreter, cut off after a number of nested evaluations.  The rules are those of
`fbld/fbld.fbld:415-484`.
-/
namespace Verif.Fbld

/-- Plain text.  C strings: the characters are those before the terminating NUL. -/
abbrev Str := List Char

/-- fbld/fbld.h:95-118 `FbldMarkup`, fbld/fbld.fbld:115-130.  Locations are left out. -/
inductive Markup where
  | plain (s : Str)
  | cmd (name : Str) (args : List Markup)
  | seq (ms : List Markup)

def nError : Str := ['e', 'r', 'r', 'o', 'r']
def nDefine : Str := ['d', 'e', 'f', 'i', 'n', 'e']
def nLet : Str := ['l', 'e', 't']
def nHead : Str := ['h', 'e', 'a', 'd']
def nTail : Str := ['t', 'a', 'i', 'l']
def nIfeq : Str := ['i', 'f', 'e', 'q']
def nIfneq : Str := ['i', 'f', 'n', 'e', 'q']
def nEval : Str := ['e', 'v', 'a', 'l']
def nPlain : Str := ['p', 'l', 'a', 'i', 'n']

/-! ### The content of markup -/

mutual
/-- What is written one after the other when the markup is printed: characters, and commands that
were left unevaluated (`none`). -/
def items : Markup → List (Option Char)
  | .plain s => s.map some
  | .cmd _ _ => [none]
  | .seq ms => itemsL ms
def itemsL : List Markup → List (Option Char)
  | [] => []
  | m :: ms => items m ++ itemsL ms
end

/-- The text of markup without commands. -/
def text (m : Markup) : Option Str := (items m).mapM id

mutual
/-- The plain texts in the markup in order, and the commands (`none`). -/
def parts : Markup → List (Option Str)
  | .plain s => [some s]
  | .cmd _ _ => [none]
  | .seq ms => partsL ms
def partsL : List Markup → List (Option Str)
  | [] => []
  | m :: ms => parts m ++ partsL ms
end

/-! ### Results -/

/-- A result, an error, or evaluation was cut off. -/
inductive Res (α : Type) where
  | ok (a : α)
  | err
  | more

namespace Res
def bind {α β : Type} : Res α → (α → Res β) → Res β
  | .ok a, f => f a
  | .err, _ => .err
  | .more, _ => .more

def ofOption {α : Type} : Option α → Res α
  | some a => .ok a
  | none => .err
end Res

/-! ### Builtins -/

/-- `@head`: the first character, nothing if the text is empty, an error if an unevaluated command
comes first. -/
def first : List (Option Char) → Res (Option Char)
  | [] => .ok none
  | some c :: _ => .ok (some c)
  | none :: _ => .err

/-- `@ifeq`: the texts are compared from the left; meeting an unevaluated command before the
comparison is decided is an error. -/
def sameText : List (Option Char) → List (Option Char) → Res Bool
  | none :: _, _ => .err
  | _, none :: _ => .err
  | [], [] => .ok true
  | [], some _ :: _ => .ok false
  | some _ :: _, [] => .ok false
  | some a :: xs, some b :: ys => if a = b then sameText xs ys else .ok false

mutual
/-- `@tail` of markup that starts with a character: that character is removed.  Empty markup in
front of it is removed as well. -/
def dropFirst : Markup → Markup
  | .plain s => .plain s.tail
  | .cmd n as => .cmd n as
  | .seq ms => dropFirstL ms
def dropFirstL : List Markup → Markup
  | [] => .seq []
  | m :: ms =>
    if items m = [] then dropFirstL ms
    else if ms = [] then dropFirst m
    else .seq (dropFirst m :: ms)
end

mutual
/-- `@plain`: every plain text is made the argument of command `f`. -/
def applyPlain (f : Str) : Markup → Markup
  | .plain s => .cmd f [.plain s]
  | .cmd n as => .cmd n as
  | .seq ms => .seq (applyPlainL f ms)
def applyPlainL (f : Str) : List Markup → List Markup
  | [] => []
  | m :: ms => applyPlain f m :: applyPlainL f ms
end

/-- C's `isspace` in the C locale. -/
def isSpace (c : Char) : Bool := c = ' ' || c = '\t' || c = '\n' || c = '\x0b' || c = '\x0c' || c = '\r'

/-- The words of a text: the pieces between white space that are not empty. -/
def words (s : Str) : List Str := (s.splitOnP isSpace).filter (fun w => !w.isEmpty)

/-! ### Evaluation -/

/-- A definition that is in scope.  `params` is `none` for a variable, whose body has been
evaluated. -/
structure Def where
  name : Str
  params : Option (List Str)
  body : Markup

/-- Innermost definition first. -/
abbrev Env := List Def

/-- The innermost definition of a name, with what was in scope where it was made (itself
included). -/
def find (name : Str) : Env → Option (Def × Env)
  | [] => none
  | d :: E => if name = d.name then some (d, d :: E) else find name E

/-- Number of arguments of a definition. -/
def Def.arity (d : Def) : Nat := match d.params with
  | none => 0
  | some ps => ps.length

/-- Parameters bound to arguments; the last parameter is innermost. -/
def bindArgs : List Str → List Markup → Env → Env
  | p :: ps, v :: vs, E => bindArgs ps vs (⟨p, none, v⟩ :: E)
  | _, _, E => E

/-- All markups evaluated, the last one first. -/
def evalAll (ev : Markup → Res Markup) : List Markup → Res (List Markup)
  | [] => .ok []
  | m :: ms => (evalAll ev ms).bind fun vs => (ev m).bind fun v => .ok (v :: vs)

/-- `define`, `let`, ... when no definition of that name is in scope. -/
def evalBuiltin (ev : Env → Markup → Res Markup) (E : Env) (name : Str) (args : List Markup) : Res Markup :=
  if name = nError then match args with
    | [m] => (ev E m).bind fun _ => .err
    | _ => .err
  else if name = nDefine then match args with
    | [n, ps, d, b] =>
      (ev E ps).bind fun ps => (ev E n).bind fun n =>
      (Res.ofOption (text n)).bind fun n => (Res.ofOption (text ps)).bind fun ps =>
      ev (⟨n, some (words ps), d⟩ :: E) b
    | _ => .err
  else if name = nLet then match args with
    | [n, d, b] =>
      (ev E d).bind fun d => (ev E n).bind fun n =>
      (Res.ofOption (text n)).bind fun n => ev (⟨n, none, d⟩ :: E) b
    | _ => .err
  else if name = nHead then match args with
    | [m] => (ev E m).bind fun v => (first (items v)).bind fun
      | none => .ok v
      | some c => .ok (.plain [c])
    | _ => .err
  else if name = nTail then match args with
    | [m] => (ev E m).bind fun v => (first (items v)).bind fun
      | none => .ok v
      | some _ => .ok (dropFirst v)
    | _ => .err
  else if name = nIfeq then match args with
    | [a, b, t, e] => (ev E b).bind fun b => (ev E a).bind fun a =>
      (sameText (items a) (items b)).bind fun same => if same then ev E t else ev E e
    | _ => .err
  else if name = nIfneq then match args with
    | [a, b, t, e] => (ev E b).bind fun b => (ev E a).bind fun a =>
      (sameText (items a) (items b)).bind fun same => if same then ev E e else ev E t
    | _ => .err
  else if name = nEval then match args with
    | [m] => (ev E m).bind fun v => ev E v
    | _ => .err
  else if name = nPlain then match args with
    | [f, b] => (ev E b).bind fun b => (ev E f).bind fun f =>
      (Res.ofOption (text f)).bind fun f => ev E (applyPlain f b)
    | _ => .err
  else .ok (.cmd name args)

/-- The meaning of markup, cut off after `n` nested evaluations: definitions are statically scoped
and may be recursive, arguments are evaluated before the body of the definition, commands that are
not defined stay as they are, their arguments unevaluated. -/
def eval : Nat → Env → Markup → Res Markup
  | 0, _, _ => .more
  | n + 1, E, m => match m with
    | .plain s => .ok (.plain s)
    | .seq ms => (evalAll (eval n E) ms).bind fun vs => .ok (.seq vs)
    | .cmd name args => match find name E with
      | some (d, E') =>
        if args.length ≠ d.arity then .err
        else match d.params with
          | none => .ok d.body
          | some ps => (evalAll (eval n E) args).bind fun vs => eval n (bindArgs ps vs E') d.body
      | none => evalBuiltin (eval n) E name args

end Verif.Fbld
