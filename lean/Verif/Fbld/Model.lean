import Verif.Fbld.Markup
/-!
# Model of the fbld evaluator (fbld/eval.c, fbld/markup.c)

The evaluator works on a stack of commands.  A command stores its result through a pointer: into a
field of another command, into the body of an environment entry, into an element of a sequence, or
into the final result.  In the model the fields that are written through pointers are the cells of
a memory; a pointer to an element of a sequence is the cell that holds the (outermost) sequence
being built together with the path to the element.  Reading a cell copies the tree in it, whereas
the program shares it; `Verif.Fbld.C50_no_pending_write` shows that the program never stores into a
tree after it has been read.

Not modelled: source locations (but the walk of `FbldMarkupLoc` is, because it follows pointers),
the text of messages, and the counting of references (`CopyEnv`, `FreeEnv`, `FbldFreeMarkup`).
-/
namespace Verif.Fbld

/-- A possibly missing (`null`) pointer to markup: fbld/fbld.h:95-118. -/
inductive Tree where
  | null
  | plain (s : Str)
  | cmd (name : Str) (args : List Tree)
  | seq (ts : List Tree)

/-- Ways for the program to end abnormally. -/
inductive Crash where
  /-- a NULL pointer is dereferenced -/
  | nullDeref
  /-- an assertion in `TextOfMarkup` or `Eq` fails -/
  | assertion
  /-- the assertion `prior error not recorded properly?` in `Eval` fails -/
  | unrecorded
  /-- a write outside of a buffer -/
  | overflow
  deriving DecidableEq

/-- Result of a C function that reports errors: a value, an error with a message printed by the
function, an error without message, or an abnormal end. -/
inductive CRes (α : Type) where
  | ok (a : α)
  | fail
  | silent
  | crash (c : Crash)

/-! ### markup.c -/

mutual
/-- fbld/markup.c:109-126 `FbldMarkupLoc`: does the walk end without following a NULL pointer? -/
def locOk : Tree → Bool
  | .null => false
  | .plain _ => true
  | .cmd _ _ => true
  | .seq ts => locOkL ts
def locOkL : List Tree → Bool
  | [] => true
  | t :: _ => locOk t
end

/-- The `FbldText` under construction in `FbldTextOfMarkup`: its string, the number of bytes
allocated for the string, and `capacity`. -/
structure TextBuf where
  str : Str
  size : Nat
  capacity : Nat

/-- fbld/markup.c:145-165 case `FBLD_MARKUP_PLAIN` of `TextOfMarkup`.  `FbldNewText`
(fbld/markup.c:54-60) allocates `strlen + 1` bytes. -/
def appendText (b : Option TextBuf) (s : Str) : CRes TextBuf :=
  match b with
  | none => .ok ⟨s, s.length + 1, 0⟩
  | some b =>
    if b.capacity ≤ s.length then
      let size := b.str.length + b.capacity
      let nsize := 2 * (b.str.length + s.length)
      let capacity := nsize - size
      if s.length < capacity then
        if b.str.length + s.length + 1 ≤ nsize then .ok ⟨b.str ++ s, nsize, capacity - s.length⟩ else .crash .overflow
      else .crash .assertion
    else
      if b.str.length + s.length + 1 ≤ b.size then .ok ⟨b.str ++ s, b.size, b.capacity - s.length⟩ else .crash .overflow

mutual
/-- fbld/markup.c:139-188 `TextOfMarkup`. -/
def textOf : Tree → Option TextBuf → CRes (Option TextBuf)
  | .null, _ => .silent
  | .plain s, b => match appendText b s with
    | .ok b => .ok (some b)
    | .fail => .fail
    | .silent => .silent
    | .crash c => .crash c
  | .cmd _ _, _ => .fail
  | .seq ts, b => textOfL ts b
/-- fbld/markup.c:173-184 loop over the elements. -/
def textOfL : List Tree → Option TextBuf → CRes (Option TextBuf)
  | [], b => .ok b
  | t :: ts, b => match textOf t b with
    | .ok b => textOfL ts b
    | .fail => .fail
    | .silent => .silent
    | .crash c => .crash c
end

/-- fbld/markup.c:191-206 `FbldTextOfMarkup`. -/
def textOfMarkup (t : Tree) : CRes Str :=
  match textOf t none with
  | .ok (some b) => .ok b.str
  | .ok none => if locOk t then .ok [] else .crash .nullDeref
  | .fail => .fail
  | .silent => .silent
  | .crash c => .crash c

mutual
/-- fbld/markup.c:209-235 `FbldPrintMarkup`: what is printed, and whether it succeeds. -/
def printMarkup : Tree → Option (Str × Bool)
  | .null => none
  | .plain s => some (s, true)
  | .cmd _ _ => some ([], false)
  | .seq ts => printMarkupL ts
def printMarkupL : List Tree → Option (Str × Bool)
  | [] => some ([], true)
  | t :: ts => match printMarkup t with
    | none => none
    | some (s, false) => some (s, false)
    | some (s, true) => match printMarkupL ts with
      | none => none
      | some (s', b) => some (s ++ s', b)
end

/-! ### Helpers of eval.c -/

mutual
/-- fbld/eval.c:271-302 `HeadOf`; `none` stands for the character NUL. -/
def headOf : Tree → CRes (Option Char)
  | .null => .silent
  | .plain [] => .ok none
  | .plain (c :: _) => .ok (some c)
  | .cmd _ _ => .fail
  | .seq ts => headOfL ts
def headOfL : List Tree → CRes (Option Char)
  | [] => .ok none
  | t :: ts => match headOf t with
    | .ok none => headOfL ts
    | .ok (some c) => .ok (some c)
    | .fail => .fail
    | .silent => .silent
    | .crash c => .crash c
end

mutual
/-- fbld/eval.c:321-375 `TailOf`; `none` stands for the result NULL. -/
def tailOf : Tree → CRes (Option Tree)
  | .null => .crash .nullDeref
  | .plain [] => .ok none
  | .plain (_ :: s) => .ok (some (.plain s))
  | .cmd _ _ => .fail
  | .seq ts => tailOfL ts
/-- fbld/eval.c:340-369 case `FBLD_MARKUP_SEQUENCE`. -/
def tailOfL : List Tree → CRes (Option Tree)
  | [] => .ok none
  | t :: ts => match tailOf t with
    | .ok none => tailOfL ts
    | .ok (some child) => match ts with
      | [] => .ok (some child)
      | t' :: ts' => .ok (some (.seq (child :: t' :: ts')))
    | .fail => .fail
    | .silent => .silent
    | .crash c => .crash c
end

mutual
/-- fbld/eval.c:461-493 `MapPlain`; `none`: a NULL pointer is dereferenced. -/
def mapPlain (f : Str) : Tree → Option Tree
  | .null => none
  | .plain s => some (.cmd f [.plain s])
  | .cmd n as => some (.cmd n as)
  | .seq ts => match mapPlainL f ts with
    | none => none
    | some ts => some (.seq ts)
def mapPlainL (f : Str) : List Tree → Option (List Tree)
  | [] => some []
  | t :: ts => match mapPlain f t with
    | none => none
    | some t => match mapPlainL f ts with
      | none => none
      | some ts => some (t :: ts)
end

mutual
/-- Number of characters in a tree; to show that `Eq` ends. -/
def chars : Tree → Nat
  | .null => 0
  | .plain s => s.length
  | .cmd _ _ => 0
  | .seq ts => charsL ts
def charsL : List Tree → Nat
  | [] => 0
  | t :: ts => chars t + charsL ts
end

mutual
theorem tailOf_chars : (t u : Tree) → tailOf t = .ok (some u) → chars u < chars t
  | .null, u, h => by simp [tailOf] at h
  | .plain [], u, h => by simp [tailOf] at h
  | .plain (c :: s), u, h => by simp [tailOf] at h; subst h; simp [chars]
  | .cmd _ _, u, h => by simp [tailOf] at h
  | .seq ts, u, h => by simp only [tailOf] at h; simp only [chars]; exact tailOfL_chars ts u h
theorem tailOfL_chars : (ts : List Tree) → (u : Tree) → tailOfL ts = .ok (some u) → chars u < charsL ts
  | [], u, h => by simp [tailOfL] at h
  | t :: ts, u, h => by
    rw [tailOfL] at h
    rw [charsL]
    cases ht : tailOf t with
    | ok o =>
      rw [ht] at h
      cases o with
      | none => have := tailOfL_chars ts u h; omega
      | some child =>
        have := tailOf_chars t child ht
        cases ts with
        | nil => simp at h; subst h; omega
        | cons t' ts' => simp at h; subst h; simp only [chars, charsL]; omega
    | fail => rw [ht] at h; simp at h
    | silent => rw [ht] at h; simp at h
    | crash c => rw [ht] at h; simp at h
end

/-- fbld/eval.c:387-450 `Eq`. -/
def eqLoop (a b : Tree) : CRes Bool :=
  match headOf a with
  | .fail => .fail
  | .silent => .silent
  | .crash c => .crash c
  | .ok ha => match headOf b with
    | .fail => .fail
    | .silent => .silent
    | .crash c => .crash c
    | .ok hb =>
      if ha ≠ hb then .ok false
      else if ha = none then .ok true
      else match hna : tailOf a with
        | .fail => .fail
        | .silent => .silent
        | .crash c => .crash c
        | .ok none => .crash .assertion
        | .ok (some na) => match tailOf b with
          | .fail => .fail
          | .silent => .silent
          | .crash c => .crash c
          | .ok none => .crash .assertion
          | .ok (some nb) => eqLoop na nb
termination_by chars a
decreasing_by exact tailOf_chars a na hna

/-- fbld/eval.c:928-951: the words of the argument list, collected in `buf`. -/
def splitArgs (buf : Str) : Str → List Str
  | [] => if buf.length > 0 then [buf] else []
  | c :: s =>
    if isSpace c then
      if buf.length > 0 then buf :: splitArgs [] s else splitArgs buf s
    else splitArgs (buf ++ [c]) s

/-! ### The evaluator -/

/-- A pointer to a markup, or the content of a cell at the time it is read. -/
inductive Ref where
  | val (t : Tree)
  | cell (k : Nat)

/-- fbld/eval.c:27-33 `Env`.  `args` is `none` if `args.xs` is NULL. -/
structure Entry where
  name : Str
  args : Option (List Str)
  body : Ref

/-- Where a result is stored: fbld/eval.c:57. -/
structure Dest where
  cell : Nat
  path : List Nat

/-- fbld/eval.c:38-185 `Cmd` and the commands derived from it.  Fields that are stored through a
pointer are given by the number of their cell. -/
inductive Cmd where
  | eval (dest : Dest) (env : List Entry) (markup : Ref)
  | define (dest : Dest) (name args : Nat) (df body : Tree) (env : List Entry)
  | letc (dest : Dest) (name df : Nat) (body : Tree) (env : List Entry)
  | ifc (dest : Dest) (a b : Nat) (ifEq ifNe : Tree) (env : List Entry)
  | error (dest : Dest) (msg : Nat)
  | head (dest : Dest) (a : Nat)
  | tail (dest : Dest) (a : Nat)
  | plain (dest : Dest) (f body : Nat) (env : List Entry)

/-- The commands still to be executed (`cmd` and its `next` pointers), memory, the variable `error`,
and whether a message has been printed. -/
structure State where
  stack : List Cmd
  mem : List Tree
  error : Bool
  reported : Bool

def load (mem : List Tree) : Ref → Tree
  | .val t => t
  | .cell k => mem.getD k .null

/-- Storing in the tree at a path. -/
def writeAt : List Nat → Tree → Tree → Tree
  | [], v, _ => v
  | i :: p, v, .seq ts => .seq (ts.modify i (writeAt p v))
  | _ :: _, _, t => t

/-- `*dest = v` -/
def write (mem : List Tree) (d : Dest) (v : Tree) : List Tree := mem.modify d.cell (writeAt d.path v)

/-- fbld/eval.c:539-540: search for a user defined command. -/
def lookup (name : Str) : List Entry → Option (Entry × List Entry)
  | [] => none
  | e :: es => if name = e.name then some (e, e :: es) else lookup name es

/-- `e->args.size` -/
def Entry.arity (e : Entry) : Nat := match e.args with
  | none => 0
  | some ps => ps.length

/-- fbld/eval.c:564-579: entries for the arguments, in cells `k`, `k + 1`, ... -/
def argEnv (k : Nat) : List Str → List Entry → List Entry
  | [], env => env
  | p :: ps, env => argEnv (k + 1) ps (⟨p, none, .cell k⟩ :: env)

/-- fbld/eval.c:577-578: commands to evaluate the arguments, pushed in order. -/
def pushArgs (env : List Entry) (k : Nat) : List Tree → List Cmd → List Cmd
  | [], cmd => cmd
  | a :: as, cmd => pushArgs env (k + 1) as (.eval ⟨k, []⟩ env (.val a) :: cmd)

/-- fbld/eval.c:873-875: commands to evaluate the elements of a sequence, pushed in order. -/
def pushSeq (d : Dest) (env : List Entry) (i : Nat) : List Tree → List Cmd → List Cmd
  | [], cmd => cmd
  | t :: ts, cmd => pushSeq d env (i + 1) ts (.eval ⟨d.cell, d.path ++ [i]⟩ env (.val t) :: cmd)

/-- What one turn of the loop does. -/
inductive Next where
  | run (s : State)
  | halt
  | crash (c : Crash)

/-- fbld/eval.c:595-857: builtin and unknown commands.  `s.stack` is what is below the command. -/
def stepBuiltin (s : State) (d : Dest) (env : List Entry) (name : Str) (args : List Tree) : Next :=
  let bad : Next := .run { s with error := true, reported := true }
  let k := s.mem.length
  if name = nError then match args with
    | [m] => .run { s with mem := s.mem ++ [.null], stack := .eval ⟨k, []⟩ env (.val m) :: .error d k :: s.stack }
    | _ => bad
  else if name = nDefine then match args with
    | [n, ps, df, b] => .run { s with
        mem := s.mem ++ [.null, .null]
        stack := .eval ⟨k + 1, []⟩ env (.val ps) :: .eval ⟨k, []⟩ env (.val n) :: .define d k (k + 1) df b env :: s.stack }
    | _ => bad
  else if name = nLet then match args with
    | [n, df, b] => .run { s with
        mem := s.mem ++ [.null, .null]
        stack := .eval ⟨k + 1, []⟩ env (.val df) :: .eval ⟨k, []⟩ env (.val n) :: .letc d k (k + 1) b env :: s.stack }
    | _ => bad
  else if name = nHead then match args with
    | [m] => .run { s with mem := s.mem ++ [.null], stack := .eval ⟨k, []⟩ env (.val m) :: .head d k :: s.stack }
    | _ => bad
  else if name = nTail then match args with
    | [m] => .run { s with mem := s.mem ++ [.null], stack := .eval ⟨k, []⟩ env (.val m) :: .tail d k :: s.stack }
    | _ => bad
  else if name = nIfeq then match args with
    | [a, b, t, e] => .run { s with
        mem := s.mem ++ [.null, .null]
        stack := .eval ⟨k + 1, []⟩ env (.val b) :: .eval ⟨k, []⟩ env (.val a) :: .ifc d k (k + 1) t e env :: s.stack }
    | _ => bad
  else if name = nIfneq then match args with
    | [a, b, t, e] => .run { s with
        mem := s.mem ++ [.null, .null]
        stack := .eval ⟨k + 1, []⟩ env (.val b) :: .eval ⟨k, []⟩ env (.val a) :: .ifc d k (k + 1) e t env :: s.stack }
    | _ => bad
  else if name = nEval then match args with
    | [m] => .run { s with
        mem := s.mem ++ [.null]
        stack := .eval ⟨k, []⟩ env (.val m) :: .eval d env (.cell k) :: s.stack }
    | _ => bad
  else if name = nPlain then match args with
    | [f, b] => .run { s with
        mem := s.mem ++ [.null, .null]
        stack := .eval ⟨k + 1, []⟩ env (.val b) :: .eval ⟨k, []⟩ env (.val f) :: .plain d k (k + 1) env :: s.stack }
    | _ => bad
  else .run { s with mem := write s.mem d (.cmd name args) }

/-- fbld/eval.c:511-888: case `EVAL_CMD`.  `s.stack` is what is below the command. -/
def stepEval (s : State) (d : Dest) (env : List Entry) (t : Tree) : Next :=
  match t with
  | .null => if s.error then .run s else .crash .unrecorded
  | .plain x => .run { s with mem := write s.mem d (.plain x) }
  | .cmd name args => match lookup name env with
    | some (e, next) =>
      if args.length ≠ e.arity then .run { s with error := true, reported := true }
      else match e.args with
        | none => .run { s with mem := write s.mem d (load s.mem e.body) }
        | some ps =>
          let k := s.mem.length
          .run { s with
            mem := s.mem ++ ps.map fun _ => .null
            stack := pushArgs env k args (.eval d (argEnv k ps next) (.val (load s.mem e.body)) :: s.stack) }
    | none => stepBuiltin s d env name args
  | .seq ts => .run { s with
      mem := write s.mem d (.seq (ts.map fun _ => .null))
      stack := pushSeq d env 0 ts s.stack }

/-- What follows a failure of a helper function: `error = true; cmd = cmd->next`. -/
def orFail {α : Type} (s : State) (r : CRes α) (f : α → Next) : Next :=
  match r with
  | .ok a => f a
  | .fail => .run { s with error := true, reported := true }
  | .silent => .run { s with error := true }
  | .crash c => .crash c

/-- fbld/eval.c:509-1116: one turn of the loop in `Eval`. -/
def step (s : State) : Next :=
  match s.stack with
  | [] => .halt
  | c :: rest =>
    let s : State := { s with stack := rest }
    match c with
    | .eval d env m => stepEval s d env (load s.mem m)
    -- fbld/eval.c:890-959
    | .define d n as df body env =>
      orFail s (textOfMarkup (load s.mem (.cell n))) fun name =>
      orFail s (textOfMarkup (load s.mem (.cell as))) fun args =>
      .run { s with stack := .eval d (⟨name, some (splitArgs [] args), .val df⟩ :: env) (.val body) :: rest }
    -- fbld/eval.c:961-990
    | .letc d n df body env =>
      orFail s (textOfMarkup (load s.mem (.cell n))) fun name =>
      .run { s with stack := .eval d (⟨name, none, .val (load s.mem (.cell df))⟩ :: env) (.val body) :: rest }
    -- fbld/eval.c:992-1014
    | .ifc d a b ifEq ifNe env =>
      orFail s (eqLoop (load s.mem (.cell a)) (load s.mem (.cell b))) fun eq =>
      .run { s with stack := .eval d env (.val (if eq then ifEq else ifNe)) :: rest }
    -- fbld/eval.c:1016-1035
    | .error _ msg =>
      orFail s (textOfMarkup (load s.mem (.cell msg))) fun _ =>
      .run { s with error := true, reported := true }
    -- fbld/eval.c:1037-1062
    | .head d a =>
      orFail s (headOf (load s.mem (.cell a))) fun
        | none => .run { s with mem := write s.mem d (load s.mem (.cell a)) }
        | some c =>
          if locOk (load s.mem (.cell a)) then .run { s with mem := write s.mem d (.plain [c]) }
          else .crash .nullDeref
    -- fbld/eval.c:1064-1089
    | .tail d a =>
      match tailOf (load s.mem (.cell a)) with
      | .ok none => .run { s with mem := write s.mem d (load s.mem (.cell a)) }
      | .ok (some t) => .run { s with mem := write s.mem d t }
      | .fail => .run { s with mem := write s.mem d .null, error := true, reported := true }
      | .silent => .run { s with mem := write s.mem d .null, error := true }
      | .crash c => .crash c
    -- fbld/eval.c:1091-1114
    | .plain d f body env =>
      orFail s (textOfMarkup (load s.mem (.cell f))) fun f =>
      match mapPlain f (load s.mem (.cell body)) with
      | none => .crash .nullDeref
      | some t => .run { s with stack := .eval d env (.val t) :: rest }

/-- `n` turns of the loop. -/
def steps : Nat → State → Next
  | 0, s => .run s
  | n + 1, s => match step s with
    | .run s => steps n s
    | .halt => .halt
    | .crash c => .crash c

mutual
/-- A parsed document, or a value: a tree without missing pointers. -/
def embed : Markup → Tree
  | .plain s => .plain s
  | .cmd n as => .cmd n (embedL as)
  | .seq ms => .seq (embedL ms)
def embedL : List Markup → List Tree
  | [] => []
  | m :: ms => embed m :: embedL ms
end

/-- fbld/eval.c:1123-1124: the document is about to be evaluated into `result`, which is cell 0. -/
def start (m : Markup) : State :=
  { stack := [.eval ⟨0, []⟩ [] (.val (embed m))], mem := [.null], error := false, reported := false }

/-- fbld/eval.c:1121-1130 `FbldEval` returns `t`: the loop ended without error with `t` in
`result`. -/
def Returns (m : Markup) (t : Tree) : Prop :=
  ∃ n s, steps n (start m) = .run s ∧ s.stack = [] ∧ s.error = false ∧ s.mem[0]? = some t

/-- fbld/eval.c:1124-1127: `FbldEval` reports failure by returning NULL. -/
def Fails (m : Markup) : Prop :=
  ∃ n s, steps n (start m) = .run s ∧ s.stack = [] ∧ s.error = true

/-- The program ends abnormally while evaluating `m`. -/
def Crashes (m : Markup) (c : Crash) : Prop :=
  ∃ n, steps n (start m) = .crash c

end Verif.Fbld
