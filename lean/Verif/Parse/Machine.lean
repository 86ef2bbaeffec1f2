import Verif.Parse.Tables
import Verif.Text.Model
/-
The parser bison generates: the loop of `yyparse`, for any actions.

SIMPLIFIED: source locations are left out.  The tokens are given as a list, the token after the last
is END.  Error recovery is left out: the grammar has no `error` token, so that after a syntax
error `yyparse` only discards what is on the stack and returns 1.
-/
namespace Verif.Parse
open Text (Token Byte Str ch)

/-- A token: one of the tokens given to the parser first (parse.y:87-88, 829-833), or one from the
text. -/
inductive Tok where
  | program
  | modulePath
  | lex (t : Token)
  deriving DecidableEq

/-- The characters that are tokens of the grammar. -/
def charKinds : List (Byte × Nat) :=
  [(ch '@', t_at), (ch '/', t_slash), (ch '%', t_percent), (ch '<', t_lt), (ch '>', t_gt), (ch ',', t_comma),
   (ch '*', t_star), (ch '(', t_lpar), (ch ')', t_rpar), (ch '.', t_dot), (ch '+', t_plus), (ch ':', t_colon),
   (ch '?', t_quest), (ch '[', t_lbrack), (ch ']', t_rbrack), (ch '|', t_bar), (ch '{', t_lbrace), (ch '}', t_rbrace),
   (ch ';', t_semi), (ch '-', t_minus), (ch '=', t_equals)]

/-- The terminal symbol of a token: `yytranslate`. -/
def Tok.kind : Tok → Nat
  | .program => t_parseProgram
  | .modulePath => t_parseModulePath
  | .lex .end_ => t_eof
  | .lex (.word _) => t_word
  | .lex (.punct b) => (charKinds.lookup b).getD t_undef

/-- The terminal symbol of the next token. -/
def look : List Tok → Nat
  | [] => t_eof
  | t :: _ => t.kind

/-- An entry of the stacks of the parser: state (`yyss`), symbol, value (`yyvs`).  The initial state
at the bottom is left out. -/
structure Entry (V : Type) where
  state : Nat
  sym : Nat
  val : V

/-- The state on top. -/
def top {V : Type} : List (Entry V) → Nat
  | [] => 0
  | e :: _ => e.state

/-- What an action does: a value, `YYERROR`, or reading a member of the union `YYSTYPE` that was not
stored. -/
inductive ActRes (V σ : Type) where
  | ok (v : V) (s : σ)
  | yyerror (s : σ)
  | crash

/-- The values of tokens, and the actions. -/
structure Sem (V σ : Type) where
  leaf : Tok → V
  act : Rule → List V → σ → ActRes V σ

structure Cfg (V σ : Type) where
  stack : List (Entry V)
  rest : List Tok
  st : σ

/-- How `yyparse` ends. -/
inductive Out (σ : Type) where
  /-- returns 0 -/
  | accepted (s : σ)
  /-- `yyerror("syntax error ...")`, returns 1 -/
  | syntaxError (s : σ)
  /-- `YYERROR` in an action, returns 1 -/
  | failed (s : σ)
  /-- `yyerror("memory exhausted")`, returns 2 -/
  | exhausted (s : σ)
  | crash

inductive Next (V σ : Type) where
  | run (c : Cfg V σ)
  | done (o : Out σ)

variable {V σ : Type}

/-- `yynewstate`: a new entry; the stack can have at most `lim` of them. -/
def push (lim : Nat) (e : Entry V) (stack : List (Entry V)) (rest : List Tok) (s : σ) : Next V σ :=
  if stack.length + 1 ≤ lim then .run ⟨e :: stack, rest, s⟩ else .done (.exhausted s)

/-- One turn of the loop: `yybackup`, `yydefault`, `yyreduce`. -/
def step (sem : Sem V σ) (lim : Nat) (c : Cfg V σ) : Next V σ :=
  match action (top c.stack) (look c.rest) with
  | .accept => .done (.accepted c.st)
  | .error => .done (.syntaxError c.st)
  | .shift t => match c.rest with
    | [] => .done .crash
    | tok :: rest => push lim ⟨t, tok.kind, sem.leaf tok⟩ c.stack rest c.st
  | .reduce r =>
    if c.stack.length < r.rhs.length then .done .crash
    else
      let below := c.stack.drop r.rhs.length
      match sem.act r ((c.stack.take r.rhs.length).reverse.map (·.val)) c.st with
      | .crash => .done .crash
      | .yyerror s => .done (.failed s)
      | .ok v s => match goto (top below) r.lhs with
        | none => .done .crash
        | some t => push lim ⟨t, r.lhs, v⟩ below c.rest s

/-- Turns of the loop that do not end it. -/
inductive Steps (sem : Sem V σ) (lim : Nat) : Cfg V σ → Cfg V σ → Prop where
  | refl (c) : Steps sem lim c c
  | head {c c' c''} : step sem lim c = .run c' → Steps sem lim c' c'' → Steps sem lim c c''

/-- The loop ends with this outcome. -/
def Ends (sem : Sem V σ) (lim : Nat) (c : Cfg V σ) (o : Out σ) : Prop :=
  ∃ c', Steps sem lim c c' ∧ step sem lim c' = .done o

/-- The stack of the bison parser has at most YYMAXDEPTH = 10000 entries, which parse.y does not
change; the parser gives up when all are in use, one of them by the initial state. -/
def maxDepth : Nat := 9998

end Verif.Parse
