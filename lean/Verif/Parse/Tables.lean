/-
The grammar of /repo/lib/parse.y and the LALR(1) tables bison makes of it.

The symbols and the productions are those of parse.y, numbered as bison numbers productions.  The
tables are not in /repo: they are built from parse.y by bison.  These here were computed from
parse.y by tools/lalr.py with the construction bison documents: the LALR(1) automaton (which has no
conflicts), and in every state with reductions the most frequent one as the default, which is used for every
token that has no other action in the state.  Whether the tables are right does not have to be taken
on trust: Parse/Check.lean proves what is needed about them.
-/
namespace Verif.Parse

/-! ### Symbols: parse.y:86-104 -/

abbrev t_eof : Nat := 0
abbrev t_undef : Nat := 1   -- a character that is no token of the grammar
abbrev t_parseProgram : Nat := 2
abbrev t_parseModulePath : Nat := 3
abbrev t_word : Nat := 4
abbrev t_at : Nat := 5
abbrev t_slash : Nat := 6
abbrev t_percent : Nat := 7
abbrev t_lt : Nat := 8
abbrev t_gt : Nat := 9
abbrev t_comma : Nat := 10
abbrev t_star : Nat := 11
abbrev t_lpar : Nat := 12
abbrev t_rpar : Nat := 13
abbrev t_dot : Nat := 14
abbrev t_plus : Nat := 15
abbrev t_colon : Nat := 16
abbrev t_quest : Nat := 17
abbrev t_lbrack : Nat := 18
abbrev t_rbrack : Nat := 19
abbrev t_bar : Nat := 20
abbrev t_lbrace : Nat := 21
abbrev t_rbrace : Nat := 22
abbrev t_semi : Nat := 23
abbrev t_minus : Nat := 24
abbrev t_equals : Nat := 25
abbrev n_accept : Nat := 26
abbrev n_start : Nat := 27
abbrev n_name : Nat := 28
abbrev n_path : Nat := 29
abbrev n_module_path : Nat := 30
abbrev n_nkind : Nat := 31
abbrev n_tkind : Nat := 32
abbrev n_kind : Nat := 33
abbrev n_tkind_p : Nat := 34
abbrev n_tagged_kind_p : Nat := 35
abbrev n_expr : Nat := 36
abbrev n_block : Nat := 37
abbrev n_stmt : Nat := 38
abbrev n_expr_p : Nat := 39
abbrev n_expr_s : Nat := 40
abbrev n_tagged_type : Nat := 41
abbrev n_tagged_type_p : Nat := 42
abbrev n_tagged_type_s : Nat := 43
abbrev n_implicit_tagged_expr : Nat := 44
abbrev n_implicit_tagged_expr_p : Nat := 45
abbrev n_implicit_tagged_expr_s : Nat := 46
abbrev n_tagged_expr : Nat := 47
abbrev n_tagged_expr_p : Nat := 48
abbrev n_let_binding_p : Nat := 49

/-- The number of terminal symbols; the others are nonterminal. -/
abbrev numTerminals : Nat := 26
/-- The number of symbols. -/
abbrev numSyms : Nat := 50

/-- The productions, parse.y:192-700. -/
inductive Rule where
  /-- `$accept: start END` -/
  | accept
  /-- parse.y:193 `start: PARSE_PROGRAM stmt` -/
  | startProgram
  /-- parse.y:197 `start: PARSE_MODULE_PATH module_path` -/
  | startPath
  /-- parse.y:204 `name: WORD` -/
  | nameWord
  /-- parse.y:209 `name: WORD '@'` -/
  | nameType
  /-- parse.y:217 `path: WORD` -/
  | pathWord
  /-- parse.y:224 `path: path '/' WORD` -/
  | pathSlash
  /-- parse.y:233 `module_path: '/' path '%'` -/
  | modulePath
  /-- parse.y:241 `nkind: '%'` -/
  | nkindBasic
  /-- parse.y:244 `nkind: '<' tkind_p '>' nkind` -/
  | nkindPoly
  /-- parse.y:262 `tkind: '@'` -/
  | tkindBasic
  /-- parse.y:265 `tkind: '<' tkind_p '>' tkind` -/
  | tkindPoly
  /-- parse.y:282 `kind: nkind` -/
  | kindN
  /-- parse.y:282 `kind: tkind` -/
  | kindT
  /-- parse.y:285 `tkind_p: tkind` -/
  | tkindsOne
  /-- parse.y:289 `tkind_p: tkind_p ',' tkind` -/
  | tkindsMore
  /-- parse.y:296 `tagged_kind_p: kind name` -/
  | taggedKindsOne
  /-- parse.y:302 `tagged_kind_p: tagged_kind_p ',' kind name` -/
  | taggedKindsMore
  /-- parse.y:311 `expr: '@' '<' expr '>'` -/
  | exprTypeof
  /-- parse.y:318 `expr: name` -/
  | exprVar
  /-- parse.y:325 `expr: module_path` -/
  | exprModule
  /-- parse.y:343 `expr: '*' '(' tagged_type_s ')'` -/
  | exprStructType
  /-- parse.y:351 `expr: expr '(' expr_s ')'` -/
  | exprApply
  /-- parse.y:360 `expr: '@' '(' implicit_tagged_expr_s ')'` -/
  | exprStruct
  /-- parse.y:367 `expr: expr '.' name` -/
  | exprAccess
  /-- parse.y:375 `expr: expr '.' '@' '(' implicit_tagged_expr_p ')'` -/
  | exprCopy
  /-- parse.y:383 `expr: '+' '(' tagged_type_p ')'` -/
  | exprUnionType
  /-- parse.y:391 `expr: '%' '(' module_path ')'` -/
  | exprPackage
  /-- parse.y:398 `expr: '%' '(' ')'` -/
  | exprPackageNone
  /-- parse.y:405 `expr: expr '(' name ':' expr ')'` -/
  | exprUnion
  /-- parse.y:414 `expr: expr '.' '?' '(' tagged_expr_p ')'` -/
  | exprSelect
  /-- parse.y:423 `expr: expr '.' '?' '(' tagged_expr_p ',' ':' expr ')'` -/
  | exprSelectDefault
  /-- parse.y:432 `expr: expr '<' expr_p '>'` -/
  | exprPolyApply
  /-- parse.y:444 `expr: expr '.' '%'` -/
  | exprAbstractAccess
  /-- parse.y:451 `expr: expr '.' '<' expr '>' '(' expr ')'` -/
  | exprCast
  /-- parse.y:460 `expr: expr '[' expr_s ']'` -/
  | exprList
  /-- parse.y:468 `expr: expr '|' WORD` -/
  | exprLiteral
  /-- parse.y:477 `expr: block` -/
  | exprBlock
  /-- parse.y:483 `block: '{' stmt '}'` -/
  | blockStmt
  /-- parse.y:486 `block: '(' expr_p ')' block` -/
  | blockFuncType
  /-- parse.y:499 `block: '(' tagged_type_p ')' block` -/
  | blockFunc
  /-- parse.y:512 `block: '<' tagged_kind_p '>' block` -/
  | blockPoly
  /-- parse.y:530 `stmt: expr ';'` -/
  | stmtExpr
  /-- parse.y:531 `stmt: let_binding_p ';' stmt` -/
  | stmtLet
  /-- parse.y:539 `stmt: tagged_type_p '<' '-' expr ';' stmt` -/
  | stmtBind
  /-- parse.y:560 `stmt: expr ';' stmt` -/
  | stmtDefault
  /-- parse.y:576 `expr_p: expr` -/
  | exprsOne
  /-- parse.y:580 `expr_p: expr_p ',' expr` -/
  | exprsMore
  /-- parse.y:587 `expr_s: %empty` -/
  | exprsNone
  /-- parse.y:588 `expr_s: expr_p` -/
  | exprsSome
  /-- parse.y:592 `tagged_type: expr name` -/
  | taggedType
  /-- parse.y:599 `tagged_type_p: tagged_type` -/
  | taggedTypesOne
  /-- parse.y:605 `tagged_type_p: tagged_type_p ',' tagged_type` -/
  | taggedTypesMore
  /-- parse.y:614 `tagged_type_s: %empty` -/
  | taggedTypesNone
  /-- parse.y:615 `tagged_type_s: tagged_type_p` -/
  | taggedTypesSome
  /-- parse.y:619 `implicit_tagged_expr: name` -/
  | implicitVar
  /-- parse.y:628 `implicit_tagged_expr: name ':' expr` -/
  | implicitColon
  /-- parse.y:635 `implicit_tagged_expr_p: implicit_tagged_expr` -/
  | implicitsOne
  /-- parse.y:639 `implicit_tagged_expr_p: implicit_tagged_expr_p ',' implicit_tagged_expr` -/
  | implicitsMore
  /-- parse.y:646 `implicit_tagged_expr_s: %empty` -/
  | implicitsNone
  /-- parse.y:647 `implicit_tagged_expr_s: implicit_tagged_expr_p` -/
  | implicitsSome
  /-- parse.y:651 `tagged_expr: name ':' expr` -/
  | taggedExpr
  /-- parse.y:658 `tagged_expr_p: tagged_expr` -/
  | taggedExprsOne
  /-- parse.y:662 `tagged_expr_p: tagged_expr_p ',' tagged_expr` -/
  | taggedExprsMore
  /-- parse.y:669 `let_binding_p: expr name '=' expr` -/
  | bindType
  /-- parse.y:677 `let_binding_p: kind name '=' expr` -/
  | bindKind
  /-- parse.y:685 `let_binding_p: let_binding_p ',' expr name '=' expr` -/
  | bindMoreType
  /-- parse.y:693 `let_binding_p: let_binding_p ',' kind name '=' expr` -/
  | bindMoreKind
  deriving DecidableEq

/-- Left hand side. -/
def Rule.lhs : Rule → Nat
  | .accept => n_accept
  | .startProgram => n_start
  | .startPath => n_start
  | .nameWord => n_name
  | .nameType => n_name
  | .pathWord => n_path
  | .pathSlash => n_path
  | .modulePath => n_module_path
  | .nkindBasic => n_nkind
  | .nkindPoly => n_nkind
  | .tkindBasic => n_tkind
  | .tkindPoly => n_tkind
  | .kindN => n_kind
  | .kindT => n_kind
  | .tkindsOne => n_tkind_p
  | .tkindsMore => n_tkind_p
  | .taggedKindsOne => n_tagged_kind_p
  | .taggedKindsMore => n_tagged_kind_p
  | .exprTypeof => n_expr
  | .exprVar => n_expr
  | .exprModule => n_expr
  | .exprStructType => n_expr
  | .exprApply => n_expr
  | .exprStruct => n_expr
  | .exprAccess => n_expr
  | .exprCopy => n_expr
  | .exprUnionType => n_expr
  | .exprPackage => n_expr
  | .exprPackageNone => n_expr
  | .exprUnion => n_expr
  | .exprSelect => n_expr
  | .exprSelectDefault => n_expr
  | .exprPolyApply => n_expr
  | .exprAbstractAccess => n_expr
  | .exprCast => n_expr
  | .exprList => n_expr
  | .exprLiteral => n_expr
  | .exprBlock => n_expr
  | .blockStmt => n_block
  | .blockFuncType => n_block
  | .blockFunc => n_block
  | .blockPoly => n_block
  | .stmtExpr => n_stmt
  | .stmtLet => n_stmt
  | .stmtBind => n_stmt
  | .stmtDefault => n_stmt
  | .exprsOne => n_expr_p
  | .exprsMore => n_expr_p
  | .exprsNone => n_expr_s
  | .exprsSome => n_expr_s
  | .taggedType => n_tagged_type
  | .taggedTypesOne => n_tagged_type_p
  | .taggedTypesMore => n_tagged_type_p
  | .taggedTypesNone => n_tagged_type_s
  | .taggedTypesSome => n_tagged_type_s
  | .implicitVar => n_implicit_tagged_expr
  | .implicitColon => n_implicit_tagged_expr
  | .implicitsOne => n_implicit_tagged_expr_p
  | .implicitsMore => n_implicit_tagged_expr_p
  | .implicitsNone => n_implicit_tagged_expr_s
  | .implicitsSome => n_implicit_tagged_expr_s
  | .taggedExpr => n_tagged_expr
  | .taggedExprsOne => n_tagged_expr_p
  | .taggedExprsMore => n_tagged_expr_p
  | .bindType => n_let_binding_p
  | .bindKind => n_let_binding_p
  | .bindMoreType => n_let_binding_p
  | .bindMoreKind => n_let_binding_p

/-- Right hand side. -/
def Rule.rhs : Rule → List Nat
  | .accept => [n_start, t_eof]
  | .startProgram => [t_parseProgram, n_stmt]
  | .startPath => [t_parseModulePath, n_module_path]
  | .nameWord => [t_word]
  | .nameType => [t_word, t_at]
  | .pathWord => [t_word]
  | .pathSlash => [n_path, t_slash, t_word]
  | .modulePath => [t_slash, n_path, t_percent]
  | .nkindBasic => [t_percent]
  | .nkindPoly => [t_lt, n_tkind_p, t_gt, n_nkind]
  | .tkindBasic => [t_at]
  | .tkindPoly => [t_lt, n_tkind_p, t_gt, n_tkind]
  | .kindN => [n_nkind]
  | .kindT => [n_tkind]
  | .tkindsOne => [n_tkind]
  | .tkindsMore => [n_tkind_p, t_comma, n_tkind]
  | .taggedKindsOne => [n_kind, n_name]
  | .taggedKindsMore => [n_tagged_kind_p, t_comma, n_kind, n_name]
  | .exprTypeof => [t_at, t_lt, n_expr, t_gt]
  | .exprVar => [n_name]
  | .exprModule => [n_module_path]
  | .exprStructType => [t_star, t_lpar, n_tagged_type_s, t_rpar]
  | .exprApply => [n_expr, t_lpar, n_expr_s, t_rpar]
  | .exprStruct => [t_at, t_lpar, n_implicit_tagged_expr_s, t_rpar]
  | .exprAccess => [n_expr, t_dot, n_name]
  | .exprCopy => [n_expr, t_dot, t_at, t_lpar, n_implicit_tagged_expr_p, t_rpar]
  | .exprUnionType => [t_plus, t_lpar, n_tagged_type_p, t_rpar]
  | .exprPackage => [t_percent, t_lpar, n_module_path, t_rpar]
  | .exprPackageNone => [t_percent, t_lpar, t_rpar]
  | .exprUnion => [n_expr, t_lpar, n_name, t_colon, n_expr, t_rpar]
  | .exprSelect => [n_expr, t_dot, t_quest, t_lpar, n_tagged_expr_p, t_rpar]
  | .exprSelectDefault => [n_expr, t_dot, t_quest, t_lpar, n_tagged_expr_p, t_comma, t_colon, n_expr, t_rpar]
  | .exprPolyApply => [n_expr, t_lt, n_expr_p, t_gt]
  | .exprAbstractAccess => [n_expr, t_dot, t_percent]
  | .exprCast => [n_expr, t_dot, t_lt, n_expr, t_gt, t_lpar, n_expr, t_rpar]
  | .exprList => [n_expr, t_lbrack, n_expr_s, t_rbrack]
  | .exprLiteral => [n_expr, t_bar, t_word]
  | .exprBlock => [n_block]
  | .blockStmt => [t_lbrace, n_stmt, t_rbrace]
  | .blockFuncType => [t_lpar, n_expr_p, t_rpar, n_block]
  | .blockFunc => [t_lpar, n_tagged_type_p, t_rpar, n_block]
  | .blockPoly => [t_lt, n_tagged_kind_p, t_gt, n_block]
  | .stmtExpr => [n_expr, t_semi]
  | .stmtLet => [n_let_binding_p, t_semi, n_stmt]
  | .stmtBind => [n_tagged_type_p, t_lt, t_minus, n_expr, t_semi, n_stmt]
  | .stmtDefault => [n_expr, t_semi, n_stmt]
  | .exprsOne => [n_expr]
  | .exprsMore => [n_expr_p, t_comma, n_expr]
  | .exprsNone => []
  | .exprsSome => [n_expr_p]
  | .taggedType => [n_expr, n_name]
  | .taggedTypesOne => [n_tagged_type]
  | .taggedTypesMore => [n_tagged_type_p, t_comma, n_tagged_type]
  | .taggedTypesNone => []
  | .taggedTypesSome => [n_tagged_type_p]
  | .implicitVar => [n_name]
  | .implicitColon => [n_name, t_colon, n_expr]
  | .implicitsOne => [n_implicit_tagged_expr]
  | .implicitsMore => [n_implicit_tagged_expr_p, t_comma, n_implicit_tagged_expr]
  | .implicitsNone => []
  | .implicitsSome => [n_implicit_tagged_expr_p]
  | .taggedExpr => [n_name, t_colon, n_expr]
  | .taggedExprsOne => [n_tagged_expr]
  | .taggedExprsMore => [n_tagged_expr_p, t_comma, n_tagged_expr]
  | .bindType => [n_expr, n_name, t_equals, n_expr]
  | .bindKind => [n_kind, n_name, t_equals, n_expr]
  | .bindMoreType => [n_let_binding_p, t_comma, n_expr, n_name, t_equals, n_expr]
  | .bindMoreKind => [n_let_binding_p, t_comma, n_kind, n_name, t_equals, n_expr]

/-- All productions. -/
def rules : List Rule :=
  [.accept, .startProgram, .startPath, .nameWord, .nameType, .pathWord, .pathSlash, .modulePath,
   .nkindBasic, .nkindPoly, .tkindBasic, .tkindPoly, .kindN, .kindT, .tkindsOne, .tkindsMore,
   .taggedKindsOne, .taggedKindsMore, .exprTypeof, .exprVar, .exprModule, .exprStructType, .exprApply, .exprStruct,
   .exprAccess, .exprCopy, .exprUnionType, .exprPackage, .exprPackageNone, .exprUnion, .exprSelect, .exprSelectDefault,
   .exprPolyApply, .exprAbstractAccess, .exprCast, .exprList, .exprLiteral, .exprBlock, .blockStmt, .blockFuncType,
   .blockFunc, .blockPoly, .stmtExpr, .stmtLet, .stmtBind, .stmtDefault, .exprsOne, .exprsMore,
   .exprsNone, .exprsSome, .taggedType, .taggedTypesOne, .taggedTypesMore, .taggedTypesNone, .taggedTypesSome, .implicitVar,
   .implicitColon, .implicitsOne, .implicitsMore, .implicitsNone, .implicitsSome, .taggedExpr, .taggedExprsOne, .taggedExprsMore,
   .bindType, .bindKind, .bindMoreType, .bindMoreKind]

/-- A map from numbers, as a binary tree: the lowest bit of the number chooses the side. -/
inductive Bin (α : Type) where
  | nil
  | leaf (a : α)
  | node (l r : Bin α)

def Bin.get {α : Type} : Bin α → Nat → Option α
  | .nil, _ => none
  | .leaf a, n => if n = 0 then some a else none
  | .node l r, n => if n % 2 = 0 then l.get (n / 2) else r.get (n / 2)

/-- A state of the automaton: terminals that are shifted and the next state, reductions with their
lookahead, the default reduction, and the state after a nonterminal. -/
structure Row where
  shift : List (Nat × Nat)
  reduce : List (Nat × Rule)
  default : Option Rule
  goto : List (Nat × Nat)

private def r0 : Row := ⟨[(2, 2), (3, 3)], [], none, [(27, 1)]⟩
private def r1 : Row := ⟨[], [], none, []⟩
private def r2 : Row := ⟨[(4, 18), (5, 9), (6, 19), (7, 14), (8, 22), (11, 12), (12, 21), (15, 13), (21, 20)], [], none, [(28, 10), (30, 11), (31, 23), (32, 24), (33, 16), (36, 6), (37, 15), (38, 5), (41, 17), (42, 8), (49, 7)]⟩
private def r3 : Row := ⟨[(6, 19)], [], none, [(30, 25)]⟩
private def r4 : Row := ⟨[], [], none, []⟩
private def r5 : Row := ⟨[], [], some .startProgram, []⟩
private def r6 : Row := ⟨[(4, 18), (8, 28), (12, 26), (14, 27), (18, 29), (20, 30), (23, 31)], [], none, [(28, 32)]⟩
private def r7 : Row := ⟨[(10, 34), (23, 33)], [], none, []⟩
private def r8 : Row := ⟨[(8, 35), (10, 36)], [], none, []⟩
private def r9 : Row := ⟨[(8, 37), (12, 38)], [], some .tkindBasic, []⟩
private def r10 : Row := ⟨[], [], some .exprVar, []⟩
private def r11 : Row := ⟨[], [], some .exprModule, []⟩
private def r12 : Row := ⟨[(12, 39)], [], none, []⟩
private def r13 : Row := ⟨[(12, 40)], [], none, []⟩
private def r14 : Row := ⟨[(12, 41)], [], some .nkindBasic, []⟩
private def r15 : Row := ⟨[], [], some .exprBlock, []⟩
private def r16 : Row := ⟨[(4, 18)], [], none, [(28, 42)]⟩
private def r17 : Row := ⟨[], [], some .taggedTypesOne, []⟩
private def r18 : Row := ⟨[(5, 43)], [], some .nameWord, []⟩
private def r19 : Row := ⟨[(4, 45)], [], none, [(29, 44)]⟩
private def r20 : Row := ⟨[(4, 18), (5, 9), (6, 19), (7, 14), (8, 22), (11, 12), (12, 21), (15, 13), (21, 20)], [], none, [(28, 10), (30, 11), (31, 23), (32, 24), (33, 16), (36, 6), (37, 15), (38, 46), (41, 17), (42, 8), (49, 7)]⟩
private def r21 : Row := ⟨[(4, 18), (5, 50), (6, 19), (7, 51), (8, 52), (11, 12), (12, 21), (15, 13), (21, 20)], [], none, [(28, 10), (30, 11), (36, 49), (37, 15), (39, 47), (41, 17), (42, 48)]⟩
private def r22 : Row := ⟨[(5, 57), (7, 59), (8, 58)], [], none, [(31, 23), (32, 55), (33, 56), (34, 53), (35, 54)]⟩
private def r23 : Row := ⟨[], [], some .kindN, []⟩
private def r24 : Row := ⟨[], [], some .kindT, []⟩
private def r25 : Row := ⟨[], [], some .startPath, []⟩
private def r26 : Row := ⟨[(4, 18), (5, 50), (6, 19), (7, 51), (8, 52), (11, 12), (12, 21), (15, 13), (21, 20)], [], some .exprsNone, [(28, 61), (30, 11), (36, 63), (37, 15), (39, 62), (40, 60)]⟩
private def r27 : Row := ⟨[(4, 18), (5, 65), (7, 67), (8, 68), (17, 66)], [], none, [(28, 64)]⟩
private def r28 : Row := ⟨[(4, 18), (5, 50), (6, 19), (7, 51), (8, 52), (11, 12), (12, 21), (15, 13), (21, 20)], [], none, [(28, 10), (30, 11), (36, 63), (37, 15), (39, 69)]⟩
private def r29 : Row := ⟨[(4, 18), (5, 50), (6, 19), (7, 51), (8, 52), (11, 12), (12, 21), (15, 13), (21, 20)], [], some .exprsNone, [(28, 10), (30, 11), (36, 63), (37, 15), (39, 62), (40, 70)]⟩
private def r30 : Row := ⟨[(4, 71)], [], none, []⟩
private def r31 : Row := ⟨[(4, 18), (5, 9), (6, 19), (7, 14), (8, 22), (11, 12), (12, 21), (15, 13), (21, 20)], [], some .stmtExpr, [(28, 10), (30, 11), (31, 23), (32, 24), (33, 16), (36, 6), (37, 15), (38, 72), (41, 17), (42, 8), (49, 7)]⟩
private def r32 : Row := ⟨[(25, 73)], [], some .taggedType, []⟩
private def r33 : Row := ⟨[(4, 18), (5, 9), (6, 19), (7, 14), (8, 22), (11, 12), (12, 21), (15, 13), (21, 20)], [], none, [(28, 10), (30, 11), (31, 23), (32, 24), (33, 16), (36, 6), (37, 15), (38, 74), (41, 17), (42, 8), (49, 7)]⟩
private def r34 : Row := ⟨[(4, 18), (5, 9), (6, 19), (7, 14), (8, 22), (11, 12), (12, 21), (15, 13), (21, 20)], [], none, [(28, 10), (30, 11), (31, 23), (32, 24), (33, 76), (36, 75), (37, 15)]⟩
private def r35 : Row := ⟨[(24, 77)], [], none, []⟩
private def r36 : Row := ⟨[(4, 18), (5, 50), (6, 19), (7, 51), (8, 52), (11, 12), (12, 21), (15, 13), (21, 20)], [], none, [(28, 10), (30, 11), (36, 79), (37, 15), (41, 78)]⟩
private def r37 : Row := ⟨[(4, 18), (5, 50), (6, 19), (7, 51), (8, 52), (11, 12), (12, 21), (15, 13), (21, 20)], [], none, [(28, 10), (30, 11), (36, 80), (37, 15)]⟩
private def r38 : Row := ⟨[(4, 18)], [], some .implicitsNone, [(28, 84), (44, 83), (45, 82), (46, 81)]⟩
private def r39 : Row := ⟨[(4, 18), (5, 50), (6, 19), (7, 51), (8, 52), (11, 12), (12, 21), (15, 13), (21, 20)], [], some .taggedTypesNone, [(28, 10), (30, 11), (36, 79), (37, 15), (41, 17), (42, 86), (43, 85)]⟩
private def r40 : Row := ⟨[(4, 18), (5, 50), (6, 19), (7, 51), (8, 52), (11, 12), (12, 21), (15, 13), (21, 20)], [], none, [(28, 10), (30, 11), (36, 79), (37, 15), (41, 17), (42, 87)]⟩
private def r41 : Row := ⟨[(6, 19), (13, 89)], [], none, [(30, 88)]⟩
private def r42 : Row := ⟨[(25, 90)], [], none, []⟩
private def r43 : Row := ⟨[], [], some .nameType, []⟩
private def r44 : Row := ⟨[(6, 91), (7, 92)], [], none, []⟩
private def r45 : Row := ⟨[], [], some .pathWord, []⟩
private def r46 : Row := ⟨[(22, 93)], [], none, []⟩
private def r47 : Row := ⟨[(10, 95), (13, 94)], [], none, []⟩
private def r48 : Row := ⟨[(10, 36), (13, 96)], [], none, []⟩
private def r49 : Row := ⟨[(4, 18), (8, 28), (12, 26), (14, 27), (18, 29), (20, 30)], [], some .exprsOne, [(28, 97)]⟩
private def r50 : Row := ⟨[(8, 37), (12, 38)], [], none, []⟩
private def r51 : Row := ⟨[(12, 41)], [], none, []⟩
private def r52 : Row := ⟨[(5, 57), (7, 59), (8, 58)], [], none, [(31, 23), (32, 24), (33, 56), (35, 54)]⟩
private def r53 : Row := ⟨[(9, 98), (10, 99)], [], none, []⟩
private def r54 : Row := ⟨[(9, 101), (10, 100)], [], none, []⟩
private def r55 : Row := ⟨[], [(4, .kindT)], some .tkindsOne, []⟩
private def r56 : Row := ⟨[(4, 18)], [], none, [(28, 102)]⟩
private def r57 : Row := ⟨[], [], some .tkindBasic, []⟩
private def r58 : Row := ⟨[(5, 57), (8, 104)], [], none, [(32, 103), (34, 53)]⟩
private def r59 : Row := ⟨[], [], some .nkindBasic, []⟩
private def r60 : Row := ⟨[(13, 105)], [], none, []⟩
private def r61 : Row := ⟨[(16, 106)], [], some .exprVar, []⟩
private def r62 : Row := ⟨[(10, 95)], [], some .exprsSome, []⟩
private def r63 : Row := ⟨[(8, 28), (12, 26), (14, 27), (18, 29), (20, 30)], [], some .exprsOne, []⟩
private def r64 : Row := ⟨[], [], some .exprAccess, []⟩
private def r65 : Row := ⟨[(12, 107)], [], none, []⟩
private def r66 : Row := ⟨[(12, 108)], [], none, []⟩
private def r67 : Row := ⟨[], [], some .exprAbstractAccess, []⟩
private def r68 : Row := ⟨[(4, 18), (5, 50), (6, 19), (7, 51), (8, 52), (11, 12), (12, 21), (15, 13), (21, 20)], [], none, [(28, 10), (30, 11), (36, 109), (37, 15)]⟩
private def r69 : Row := ⟨[(9, 110), (10, 95)], [], none, []⟩
private def r70 : Row := ⟨[(19, 111)], [], none, []⟩
private def r71 : Row := ⟨[], [], some .exprLiteral, []⟩
private def r72 : Row := ⟨[], [], some .stmtDefault, []⟩
private def r73 : Row := ⟨[(4, 18), (5, 50), (6, 19), (7, 51), (8, 52), (11, 12), (12, 21), (15, 13), (21, 20)], [], none, [(28, 10), (30, 11), (36, 112), (37, 15)]⟩
private def r74 : Row := ⟨[], [], some .stmtLet, []⟩
private def r75 : Row := ⟨[(4, 18), (8, 28), (12, 26), (14, 27), (18, 29), (20, 30)], [], none, [(28, 113)]⟩
private def r76 : Row := ⟨[(4, 18)], [], none, [(28, 114)]⟩
private def r77 : Row := ⟨[(4, 18), (5, 50), (6, 19), (7, 51), (8, 52), (11, 12), (12, 21), (15, 13), (21, 20)], [], none, [(28, 10), (30, 11), (36, 115), (37, 15)]⟩
private def r78 : Row := ⟨[], [], some .taggedTypesMore, []⟩
private def r79 : Row := ⟨[(4, 18), (8, 28), (12, 26), (14, 27), (18, 29), (20, 30)], [], none, [(28, 97)]⟩
private def r80 : Row := ⟨[(8, 28), (9, 116), (12, 26), (14, 27), (18, 29), (20, 30)], [], none, []⟩
private def r81 : Row := ⟨[(13, 117)], [], none, []⟩
private def r82 : Row := ⟨[(10, 118)], [], some .implicitsSome, []⟩
private def r83 : Row := ⟨[], [], some .implicitsOne, []⟩
private def r84 : Row := ⟨[(16, 119)], [], some .implicitVar, []⟩
private def r85 : Row := ⟨[(13, 120)], [], none, []⟩
private def r86 : Row := ⟨[(10, 36)], [], some .taggedTypesSome, []⟩
private def r87 : Row := ⟨[(10, 36), (13, 121)], [], none, []⟩
private def r88 : Row := ⟨[(13, 122)], [], none, []⟩
private def r89 : Row := ⟨[], [], some .exprPackageNone, []⟩
private def r90 : Row := ⟨[(4, 18), (5, 50), (6, 19), (7, 51), (8, 52), (11, 12), (12, 21), (15, 13), (21, 20)], [], none, [(28, 10), (30, 11), (36, 123), (37, 15)]⟩
private def r91 : Row := ⟨[(4, 124)], [], none, []⟩
private def r92 : Row := ⟨[], [], some .modulePath, []⟩
private def r93 : Row := ⟨[], [], some .blockStmt, []⟩
private def r94 : Row := ⟨[(8, 52), (12, 21), (21, 20)], [], none, [(37, 125)]⟩
private def r95 : Row := ⟨[(4, 18), (5, 50), (6, 19), (7, 51), (8, 52), (11, 12), (12, 21), (15, 13), (21, 20)], [], none, [(28, 10), (30, 11), (36, 126), (37, 15)]⟩
private def r96 : Row := ⟨[(8, 52), (12, 21), (21, 20)], [], none, [(37, 127)]⟩
private def r97 : Row := ⟨[], [], some .taggedType, []⟩
private def r98 : Row := ⟨[(5, 57), (7, 59), (8, 58)], [], none, [(31, 128), (32, 129)]⟩
private def r99 : Row := ⟨[(5, 57), (8, 104)], [], none, [(32, 130)]⟩
private def r100 : Row := ⟨[(5, 57), (7, 59), (8, 58)], [], none, [(31, 23), (32, 24), (33, 131)]⟩
private def r101 : Row := ⟨[(8, 52), (12, 21), (21, 20)], [], none, [(37, 132)]⟩
private def r102 : Row := ⟨[], [], some .taggedKindsOne, []⟩
private def r103 : Row := ⟨[], [], some .tkindsOne, []⟩
private def r104 : Row := ⟨[(5, 57), (8, 104)], [], none, [(32, 103), (34, 133)]⟩
private def r105 : Row := ⟨[], [], some .exprApply, []⟩
private def r106 : Row := ⟨[(4, 18), (5, 50), (6, 19), (7, 51), (8, 52), (11, 12), (12, 21), (15, 13), (21, 20)], [], none, [(28, 10), (30, 11), (36, 134), (37, 15)]⟩
private def r107 : Row := ⟨[(4, 18)], [], none, [(28, 84), (44, 83), (45, 135)]⟩
private def r108 : Row := ⟨[(4, 18)], [], none, [(28, 138), (47, 137), (48, 136)]⟩
private def r109 : Row := ⟨[(8, 28), (9, 139), (12, 26), (14, 27), (18, 29), (20, 30)], [], none, []⟩
private def r110 : Row := ⟨[], [], some .exprPolyApply, []⟩
private def r111 : Row := ⟨[], [], some .exprList, []⟩
private def r112 : Row := ⟨[(8, 28), (12, 26), (14, 27), (18, 29), (20, 30)], [], some .bindType, []⟩
private def r113 : Row := ⟨[(25, 140)], [], none, []⟩
private def r114 : Row := ⟨[(25, 141)], [], none, []⟩
private def r115 : Row := ⟨[(8, 28), (12, 26), (14, 27), (18, 29), (20, 30), (23, 142)], [], none, []⟩
private def r116 : Row := ⟨[], [], some .exprTypeof, []⟩
private def r117 : Row := ⟨[], [], some .exprStruct, []⟩
private def r118 : Row := ⟨[(4, 18)], [], none, [(28, 84), (44, 143)]⟩
private def r119 : Row := ⟨[(4, 18), (5, 50), (6, 19), (7, 51), (8, 52), (11, 12), (12, 21), (15, 13), (21, 20)], [], none, [(28, 10), (30, 11), (36, 144), (37, 15)]⟩
private def r120 : Row := ⟨[], [], some .exprStructType, []⟩
private def r121 : Row := ⟨[], [], some .exprUnionType, []⟩
private def r122 : Row := ⟨[], [], some .exprPackage, []⟩
private def r123 : Row := ⟨[(8, 28), (12, 26), (14, 27), (18, 29), (20, 30)], [], some .bindKind, []⟩
private def r124 : Row := ⟨[], [], some .pathSlash, []⟩
private def r125 : Row := ⟨[], [], some .blockFuncType, []⟩
private def r126 : Row := ⟨[(8, 28), (12, 26), (14, 27), (18, 29), (20, 30)], [], some .exprsMore, []⟩
private def r127 : Row := ⟨[], [], some .blockFunc, []⟩
private def r128 : Row := ⟨[], [], some .nkindPoly, []⟩
private def r129 : Row := ⟨[], [], some .tkindPoly, []⟩
private def r130 : Row := ⟨[], [], some .tkindsMore, []⟩
private def r131 : Row := ⟨[(4, 18)], [], none, [(28, 145)]⟩
private def r132 : Row := ⟨[], [], some .blockPoly, []⟩
private def r133 : Row := ⟨[(9, 146), (10, 99)], [], none, []⟩
private def r134 : Row := ⟨[(8, 28), (12, 26), (13, 147), (14, 27), (18, 29), (20, 30)], [], none, []⟩
private def r135 : Row := ⟨[(10, 118), (13, 148)], [], none, []⟩
private def r136 : Row := ⟨[(10, 150), (13, 149)], [], none, []⟩
private def r137 : Row := ⟨[], [], some .taggedExprsOne, []⟩
private def r138 : Row := ⟨[(16, 151)], [], none, []⟩
private def r139 : Row := ⟨[(12, 152)], [], none, []⟩
private def r140 : Row := ⟨[(4, 18), (5, 50), (6, 19), (7, 51), (8, 52), (11, 12), (12, 21), (15, 13), (21, 20)], [], none, [(28, 10), (30, 11), (36, 153), (37, 15)]⟩
private def r141 : Row := ⟨[(4, 18), (5, 50), (6, 19), (7, 51), (8, 52), (11, 12), (12, 21), (15, 13), (21, 20)], [], none, [(28, 10), (30, 11), (36, 154), (37, 15)]⟩
private def r142 : Row := ⟨[(4, 18), (5, 9), (6, 19), (7, 14), (8, 22), (11, 12), (12, 21), (15, 13), (21, 20)], [], none, [(28, 10), (30, 11), (31, 23), (32, 24), (33, 16), (36, 6), (37, 15), (38, 155), (41, 17), (42, 8), (49, 7)]⟩
private def r143 : Row := ⟨[], [], some .implicitsMore, []⟩
private def r144 : Row := ⟨[(8, 28), (12, 26), (14, 27), (18, 29), (20, 30)], [], some .implicitColon, []⟩
private def r145 : Row := ⟨[], [], some .taggedKindsMore, []⟩
private def r146 : Row := ⟨[(5, 57), (8, 104)], [], none, [(32, 129)]⟩
private def r147 : Row := ⟨[], [], some .exprUnion, []⟩
private def r148 : Row := ⟨[], [], some .exprCopy, []⟩
private def r149 : Row := ⟨[], [], some .exprSelect, []⟩
private def r150 : Row := ⟨[(4, 18), (16, 156)], [], none, [(28, 138), (47, 157)]⟩
private def r151 : Row := ⟨[(4, 18), (5, 50), (6, 19), (7, 51), (8, 52), (11, 12), (12, 21), (15, 13), (21, 20)], [], none, [(28, 10), (30, 11), (36, 158), (37, 15)]⟩
private def r152 : Row := ⟨[(4, 18), (5, 50), (6, 19), (7, 51), (8, 52), (11, 12), (12, 21), (15, 13), (21, 20)], [], none, [(28, 10), (30, 11), (36, 159), (37, 15)]⟩
private def r153 : Row := ⟨[(8, 28), (12, 26), (14, 27), (18, 29), (20, 30)], [], some .bindMoreType, []⟩
private def r154 : Row := ⟨[(8, 28), (12, 26), (14, 27), (18, 29), (20, 30)], [], some .bindMoreKind, []⟩
private def r155 : Row := ⟨[], [], some .stmtBind, []⟩
private def r156 : Row := ⟨[(4, 18), (5, 50), (6, 19), (7, 51), (8, 52), (11, 12), (12, 21), (15, 13), (21, 20)], [], none, [(28, 10), (30, 11), (36, 160), (37, 15)]⟩
private def r157 : Row := ⟨[], [], some .taggedExprsMore, []⟩
private def r158 : Row := ⟨[(8, 28), (12, 26), (14, 27), (18, 29), (20, 30)], [], some .taggedExpr, []⟩
private def r159 : Row := ⟨[(8, 28), (12, 26), (13, 161), (14, 27), (18, 29), (20, 30)], [], none, []⟩
private def r160 : Row := ⟨[(8, 28), (12, 26), (13, 162), (14, 27), (18, 29), (20, 30)], [], none, []⟩
private def r161 : Row := ⟨[], [], some .exprCast, []⟩
private def r162 : Row := ⟨[], [], some .exprSelectDefault, []⟩
private def b0 : Bin Row := (.node (.node (.node (.node (.node (.leaf r0) (.leaf r128)) (.leaf r64)) (.node (.node (.leaf r32) (.leaf r160)) (.leaf r96))) (.node (.node (.node (.leaf r16) (.leaf r144)) (.leaf r80)) (.node (.leaf r48) (.leaf r112)))) (.node (.node (.node (.node (.leaf r8) (.leaf r136)) (.leaf r72)) (.node (.leaf r40) (.leaf r104))) (.node (.node (.node (.leaf r24) (.leaf r152)) (.leaf r88)) (.node (.leaf r56) (.leaf r120)))))
private def b1 : Bin Row := (.node (.node (.node (.node (.node (.leaf r1) (.leaf r129)) (.leaf r65)) (.node (.node (.leaf r33) (.leaf r161)) (.leaf r97))) (.node (.node (.node (.leaf r17) (.leaf r145)) (.leaf r81)) (.node (.leaf r49) (.leaf r113)))) (.node (.node (.node (.node (.leaf r9) (.leaf r137)) (.leaf r73)) (.node (.leaf r41) (.leaf r105))) (.node (.node (.node (.leaf r25) (.leaf r153)) (.leaf r89)) (.node (.leaf r57) (.leaf r121)))))
private def b2 : Bin Row := (.node (.node (.node (.node (.node (.leaf r2) (.leaf r130)) (.leaf r66)) (.node (.node (.leaf r34) (.leaf r162)) (.leaf r98))) (.node (.node (.node (.leaf r18) (.leaf r146)) (.leaf r82)) (.node (.leaf r50) (.leaf r114)))) (.node (.node (.node (.node (.leaf r10) (.leaf r138)) (.leaf r74)) (.node (.leaf r42) (.leaf r106))) (.node (.node (.node (.leaf r26) (.leaf r154)) (.leaf r90)) (.node (.leaf r58) (.leaf r122)))))
private def b3 : Bin Row := (.node (.node (.node (.node (.node (.leaf r3) (.leaf r131)) (.leaf r67)) (.node (.leaf r35) (.leaf r99))) (.node (.node (.node (.leaf r19) (.leaf r147)) (.leaf r83)) (.node (.leaf r51) (.leaf r115)))) (.node (.node (.node (.node (.leaf r11) (.leaf r139)) (.leaf r75)) (.node (.leaf r43) (.leaf r107))) (.node (.node (.node (.leaf r27) (.leaf r155)) (.leaf r91)) (.node (.leaf r59) (.leaf r123)))))
private def b4 : Bin Row := (.node (.node (.node (.node (.node (.leaf r4) (.leaf r132)) (.leaf r68)) (.node (.leaf r36) (.leaf r100))) (.node (.node (.node (.leaf r20) (.leaf r148)) (.leaf r84)) (.node (.leaf r52) (.leaf r116)))) (.node (.node (.node (.node (.leaf r12) (.leaf r140)) (.leaf r76)) (.node (.leaf r44) (.leaf r108))) (.node (.node (.node (.leaf r28) (.leaf r156)) (.leaf r92)) (.node (.leaf r60) (.leaf r124)))))
private def b5 : Bin Row := (.node (.node (.node (.node (.node (.leaf r5) (.leaf r133)) (.leaf r69)) (.node (.leaf r37) (.leaf r101))) (.node (.node (.node (.leaf r21) (.leaf r149)) (.leaf r85)) (.node (.leaf r53) (.leaf r117)))) (.node (.node (.node (.node (.leaf r13) (.leaf r141)) (.leaf r77)) (.node (.leaf r45) (.leaf r109))) (.node (.node (.node (.leaf r29) (.leaf r157)) (.leaf r93)) (.node (.leaf r61) (.leaf r125)))))
private def b6 : Bin Row := (.node (.node (.node (.node (.node (.leaf r6) (.leaf r134)) (.leaf r70)) (.node (.leaf r38) (.leaf r102))) (.node (.node (.node (.leaf r22) (.leaf r150)) (.leaf r86)) (.node (.leaf r54) (.leaf r118)))) (.node (.node (.node (.node (.leaf r14) (.leaf r142)) (.leaf r78)) (.node (.leaf r46) (.leaf r110))) (.node (.node (.node (.leaf r30) (.leaf r158)) (.leaf r94)) (.node (.leaf r62) (.leaf r126)))))
private def b7 : Bin Row := (.node (.node (.node (.node (.node (.leaf r7) (.leaf r135)) (.leaf r71)) (.node (.leaf r39) (.leaf r103))) (.node (.node (.node (.leaf r23) (.leaf r151)) (.leaf r87)) (.node (.leaf r55) (.leaf r119)))) (.node (.node (.node (.node (.leaf r15) (.leaf r143)) (.leaf r79)) (.node (.leaf r47) (.leaf r111))) (.node (.node (.node (.leaf r31) (.leaf r159)) (.leaf r95)) (.node (.leaf r63) (.leaf r127)))))

/-- The states, by number. -/
def table : Bin Row :=
  .node (.node (.node b0 b4) (.node b2 b6)) (.node (.node b1 b5) (.node b3 b7))

/-- The number of states. -/
abbrev numStates : Nat := 163

/-- The state in which END is accepted: after `start`, in the production `$accept: start END`. -/
def acceptState : Nat := 1

/-- What to do next. -/
inductive Action where
  | shift (state : Nat)
  | reduce (r : Rule)
  | accept
  | error
  deriving DecidableEq

/-- The action of a state for a terminal symbol: `yypact`, `yytable`, `yycheck` and `yydefact` of the
bison parser. (In a state with a default reduction only, bison does not read the next token.) -/
def action (s a : Nat) : Action :=
  match table.get s with
  | none => .error
  | some row =>
    if s = acceptState ∧ a = t_eof then .accept
    else match row.shift.lookup a with
      | some t => .shift t
      | none => match row.reduce.lookup a with
        | some r => .reduce r
        | none => match row.default with
          | some r => .reduce r
          | none => .error

/-- The state after a nonterminal: `yypgoto`, `yydefgoto`. -/
def goto (s a : Nat) : Option Nat :=
  match table.get s with
  | none => none
  | some row => row.goto.lookup a

end Verif.Parse
