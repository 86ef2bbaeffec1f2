/-
Model of names, module paths, the lexer, package search and build dependency files:
 - /repo/lib/name.c, /repo/lib/module-path.c
 - /repo/lib/parse.y:703-917 (lexer), 216-238 (module path grammar), 942-970
 - /repo/lib/load.c:82-245 (FindPackageAt, FbleFindPackage, FindAt, Find), 372-389
Strings are lists of bytes without the terminating NUL.
-/
set_option linter.unusedVariables false
namespace Verif.Text

abbrev Byte := UInt8
abbrev Str := List Byte

/-- The byte of an ASCII character. -/
def ch (c : Char) : Byte := UInt8.ofNat c.toNat

/-- parse.y:733-736, `isspace` in the C locale (assumed: no program calls setlocale). -/
def isSpace (c : Byte) : Bool :=
  c = ch ' ' || c = ch '\t' || c = ch '\n' || c = 11 || c = 12 || c = 13

/-- The literal of parse.y:752. -/
def punctuation : List Byte :=
  ['(', ')', '{', '}', '[', ']', ';', ',', ':', '?', '=', '.', '<', '>', '+', '*', '-', '!', '$',
   '@', '~', '&', '|', '%', '/', '^'].map ch

/-- parse.y:750-753, for a character other than EOF. `strchr` also matches the terminating NUL of
the literal. -/
def isPunct (c : Byte) : Bool := punctuation.contains c || c = 0

/-- parse.y:769-775, for a character other than EOF (EOF is punctuation, so not a word
character). -/
def isWordChar (c : Byte) : Bool :=
  !(isSpace c || isPunct c || c = ch '\'' || c = ch '#')

/-- parse.y:909-917 `FbleIsPlainWord`. The characters are read through a signed `char`, so that
byte 0xFF is EOF and hence punctuation. -/
def isPlainWord : Str → Bool
  | [] => true
  | c :: w => if c = 0xFF || !isWordChar c then false else isPlainWord w

inductive Space where | normal | type
  deriving DecidableEq, Repr

/-- `FbleName` (fble-name.h) without its location. -/
structure Name where
  str : Str
  space : Space
  deriving DecidableEq, Repr

/-- name.c:31-34 `FbleNamesEqual`. -/
def namesEqual (a b : Name) : Bool := a.space == b.space && a.str == b.str

/-- The loop of name.c:44-49. -/
def printChars : Str → Str
  | [] => []
  | c :: w => if c = ch '\'' then ch '\'' :: c :: printChars w else c :: printChars w

/-- name.c:37-64 `FblePrintName`. -/
def printName (n : Name) : Str :=
  let quoted := !isPlainWord n.str
  (if quoted then [ch '\''] else []) ++ printChars n.str ++ (if quoted then [ch '\''] else []) ++
  match n.space with
  | .normal => []
  | .type => [ch '@']

/-! ### Module paths -/

/-- A module path is the vector of its names (fble-module-path.h:20-34). -/
abbrev Path := List Name

/-- module-path.c:97-102, the loop from index `i`. -/
def pathsEqualFrom (a b : Path) (i : Nat) : Bool :=
  if h : i < a.length then
    if h' : i < b.length then
      if namesEqual a[i] b[i] then pathsEqualFrom a b (i + 1) else false
    else false -- out of bounds; not reached because the sizes are equal
  else true
termination_by a.length - i

/-- module-path.c:91-103 `FbleModulePathsEqual`. -/
def pathsEqual (a b : Path) : Bool :=
  if a.length ≠ b.length then false else pathsEqualFrom a b 0

/-- module-path.c:112-116, the loop from index `i`. -/
def belongsFrom (m p : Path) (i : Nat) : Bool :=
  if h : i < p.length then
    if h' : i < m.length then
      if namesEqual m[i] p[i] then belongsFrom m p (i + 1) else false
    else false -- out of bounds; not reached because of the size check
  else true
termination_by p.length - i

/-- module-path.c:106-118 `FbleModuleBelongsToPackage`. -/
def belongsToPackage (m p : Path) : Bool :=
  if m.length < p.length then false else belongsFrom m p 0

/-- module-path.c:76-88 `FblePrintModulePath`. -/
def printPath (p : Path) : Str :=
  (if p.length = 0 then [ch '/'] else []) ++ p.flatMap (fun n => ch '/' :: n.str) ++ [ch '%']

/-- module-path.c:49-52: the number of bytes allocated by `FbleModulePathName`. -/
def pathNameAlloc (p : Path) : Nat := p.foldl (fun len n => len + (1 + n.str.length)) 3

/-- module-path.c:63-71: the string built there by `strcat` (same text as printPath). -/
def pathName (p : Path) : Str :=
  p.foldl (fun s n => (s ++ [ch '/']) ++ n.str) ([] ++ if p.length = 0 then [ch '/'] else []) ++
    [ch '%']

/-! ### Lexer -/

/-- `Lex` (parse.y:22-50): current character (`none` is EOF), location, unread input, and
whether input comes from a string (`sin`) or a file (`fin`). -/
structure Lex where
  c : Option Byte
  line : Nat
  col : Nat
  rest : List Byte
  fromStr : Bool

/-- parse.y:788-799: the next character of the input and the input after it. Reading byte 0xFF
from a string gives EOF, because `char` is signed. -/
def nextChar (fromStr : Bool) : List Byte → Option Byte × List Byte
  | [] => (none, [])
  | b :: r => (if fromStr && b = 0xFF then none else some b, r)

/-- parse.y:784-807 `ReadNextChar`. -/
def readNextChar (l : Lex) : Lex :=
  let c' := (nextChar l.fromStr l.rest).1
  let rest' := (nextChar l.fromStr l.rest).2
  if l.c = some (ch '\n') then { l with c := c', rest := rest', line := l.line + 1, col := 1 }
  else if l.c ≠ none then { l with c := c', rest := rest', col := l.col + 1 }
  else { l with c := c', rest := rest' }

/-- Characters left, for termination. -/
def Lex.left (l : Lex) : Nat := 2 * l.rest.length + (if l.c.isSome then 1 else 0)

theorem left_read_le (l : Lex) : (readNextChar l).left ≤ l.left := by
  cases l with | mk c line col rest fs =>
  cases rest with
  | nil => simp only [readNextChar, nextChar, Lex.left]; (repeat' split) <;> simp_all
  | cons b r =>
    simp only [readNextChar, nextChar, Lex.left]; (repeat' split) <;> simp_all <;> omega

theorem left_read_lt (l : Lex) (h : l.c.isSome) : (readNextChar l).left < l.left := by
  cases l with | mk c line col rest fs =>
  cases rest with
  | nil => simp only [readNextChar, nextChar, Lex.left]; (repeat' split) <;> simp_all
  | cons b r =>
    simp only [readNextChar, nextChar, Lex.left]; (repeat' split) <;> simp_all <;> omega

/-- parse.y:840-842, and (with `q` a quote) the collecting loop of 867-870: read up to EOF or the
character `q`, collecting what is passed. -/
def readTo (q : Byte) (l : Lex) : Str × Lex :=
  match h : l.c with
  | none => ([], l)
  | some b =>
    if b = q then ([], l)
    else let (w, l') := readTo q (readNextChar l); (b :: w, l')
termination_by l.left
decreasing_by exact left_read_lt l (by simp [h])

theorem left_readTo (q : Byte) (l : Lex) : (readTo q l).2.left ≤ l.left := by
  fun_induction readTo q l with
  | case1 => simp
  | case2 => simp
  | case3 l b hc hb w l' heq ih =>
    have := left_read_le l
    rw [heq] at ih
    simp at ih ⊢
    omega

/-- parse.y:835-845: skip white space and comments. -/
def skip (l : Lex) : Lex :=
  match h : l.c with
  | none => l
  | some b =>
    if isSpace b then skip (readNextChar l)
    else if b = ch '#' then skip (readTo (ch '\n') (readNextChar l)).2
    else l
termination_by l.left
decreasing_by
  · exact left_read_lt l (by simp [h])
  · exact Nat.lt_of_le_of_lt (left_readTo _ _) (left_read_lt l (by simp [h]))

/-- parse.y:864-875, the quoted word loop; the current character is the opening quote, or the
second quote of a doubled one. -/
def readQuoted (l : Lex) (h : l.c = some (ch '\'')) : Str × Lex :=
  let r := readTo (ch '\'') (readNextChar l)
  let l' := readNextChar r.2
  if h' : l'.c = some (ch '\'') then
    let r' := readQuoted l' h'
    (r.1 ++ ch '\'' :: r'.1, r'.2)
  else (r.1, l')
termination_by l.left
decreasing_by
  have h1 := left_read_lt l (by simp [h])
  have h2 := left_readTo (ch '\'') (readNextChar l)
  have h3 := left_read_le (readTo (ch '\'') (readNextChar l)).2
  omega

/-- parse.y:876-880, the plain word loop. -/
def readWord (l : Lex) : Str × Lex :=
  match h : l.c with
  | none => ([], l)
  | some b =>
    if isWordChar b then let (w, l') := readWord (readNextChar l); (b :: w, l')
    else ([], l)
termination_by l.left
decreasing_by exact left_read_lt l (by simp [h])

/-- The terminal symbols returned by yylex; bison takes a token number 0 for END, so the
punctuation token of a NUL byte is `end_` too (parse.y:86 `%token END 0`, 855-859). -/
inductive Token where
  | end_
  | punct (b : Byte)
  | word (w : Str)
  deriving DecidableEq, Repr

/-- parse.y:827-886 `yylex` (after the start token): token, its line and column, and the new
lexer state. -/
def yylex (l : Lex) : Token × Nat × Nat × Lex :=
  let l := skip l
  match h : l.c with
  | none => (.end_, l.line, l.col, l)
  | some b =>
    if isPunct b then ((if b = 0 then .end_ else .punct b), l.line, l.col, readNextChar l)
    else if hb : b = ch '\'' then
      let (w, l') := readQuoted l (by rw [h, hb])
      (.word w, l.line, l.col, l')
    else
      let (w, l') := readWord l
      (.word w, l.line, l.col, l')

/-- parse.y:928-934: the lexer at the start of a file, and 950-956, of a string. -/
def initLex (fromStr : Bool) (s : List Byte) : Lex := ⟨some (ch ' '), 1, 0, s, fromStr⟩

/-- parse.y:715-720 `ToString`: the word collected by the lexer becomes a C string, so it ends at
its first NUL. -/
def toCStr (w : Str) : Str := w.takeWhile (· ≠ 0)

/-- parse.y:203-214, the `name` non-terminal, on the tokens following; the LALR(1) parser has
read the token after WORD before deciding. Returns the name and whether the second token was used. -/
def parseName (t1 t2 : Token) : Option (Name × Bool) :=
  match t1 with
  | .word w => if t2 = .punct (ch '@') then some (⟨toCStr w, .type⟩, true)
               else some (⟨toCStr w, .normal⟩, false)
  | _ => none

/-! ### Package search -/

/-- load.c:97-111 `FindPackageAt`; `access` says which files exist. -/
def findPackageAt (access : Str → Bool) (package dir : Str) : Option Str :=
  let d := dir ++ [ch '/'] ++ package
  if access d then some d else none

/-- `strchr(s, c)` as an offset from `s`. -/
def strchr (c : Byte) : Str → Option Nat
  | [] => none
  | b :: r => if b = c then some 0 else (strchr c r).map (· + 1)

/-- load.c:121-137: the do-while loop, `s` an offset into the package path. -/
def findPackageLoop (access : Str → Bool) (package path : Str) (s : Nat) : Option Str :=
  let n := match strchr (ch ':') (path.drop s) with
    | some e => e
    | none => path.length - s
  match findPackageAt access package ((path.drop s).take n) with
  | some found => some found
  | none =>
    if s + n + 1 < path.length then findPackageLoop access package path (s + n + 1) else none
termination_by path.length - s

/-- load.c:114-141 `FbleFindPackage`; `env` is the value of FBLE_PACKAGE_PATH if set, `dflt` the
configured default path. -/
def findPackage (access : Str → Bool) (dflt : Str) (env : Option Str) (package : Str) : Option Str :=
  match env with
  | some path =>
    match findPackageLoop access package path 0 with
    | some found => some found
    | none => findPackageAt access package dflt
  | none => findPackageAt access package dflt

/-- load.c:166-208 `FindAt`, returning also the entries added to build_deps. -/
def findAt (access : Str → Bool) (root : Str) (path : Path) : Option Str × List Str :=
  if path.any (fun n => n.str.contains (ch '/')) then (none, [])
  else
    let filename := path.foldl (fun f n => (f ++ [ch '/']) ++ n.str) root ++
      ['.', 'f', 'b', 'l', 'e'].map ch
    if access filename then (some filename, [filename]) else (none, [])

/-- load.c:231-245 `Find`. -/
def find (access : Str → Bool) (path : Path) : List Str → Option Str × List Str
  | [] => (none, [])
  | root :: roots =>
    match findAt access root path with
    | (some f, d) => (some f, d)
    | (none, d) => let (r, d') := find access path roots; (r, d ++ d')

/-! ### Build dependency file -/

/-- load.c:377-387, the loop with the current column. -/
def saveLoop : Nat → List Str → Str
  | _, [] => []
  | cols, dep :: deps =>
    let len := 1 + dep.length
    if cols + len > 80 then
      [ch ' ', ch '\\', ch '\n'] ++ ([ch ' '] ++ dep) ++ saveLoop (1 + len) deps
    else ([ch ' '] ++ dep) ++ saveLoop (cols + len) deps

/-- load.c:373-389 `FbleSaveBuildDeps` (lengths do not overflow `int`). -/
def saveBuildDeps (target : Str) (deps : List Str) : Str :=
  target ++ [ch ':'] ++ saveLoop (1 + target.length) deps ++ [ch '\n']

end Verif.Text
