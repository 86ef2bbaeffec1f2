import Verif.Parse.Syntax
/-
Derivations of the grammar are the programs of Parse/Syntax.lean.
-/
namespace Verif.Parse
open Text (Token Str ch)

/-- What a symbol of the grammar can stand for. -/
inductive Node where
  | tok (t : Tok)
  | name (x : SName)
  | path (x : SPath)
  | modulePath (x : SPath)
  | nkind (x : SNKind)
  | tkind (x : STKind)
  | kind (x : SKind)
  | tkinds (x : STKinds)
  | taggedKinds (x : STaggedKinds)
  | expr (x : SExpr)
  | block (x : SBlock)
  | stmt (x : SStmt)
  | exprs (x : SExprs)
  | exprs0 (x : SExprs0)
  | type (x : SType)
  | types (x : STypes)
  | types0 (x : STypes0)
  | implicit (x : SImplicit)
  | implicits (x : SImplicits)
  | implicits0 (x : SImplicits0)
  | tag (x : STag)
  | tagged (x : STagged)
  | binds (x : SBinds)
  /-- `start`, for a program -/
  | program (s : SStmt)
  /-- `start`, for a module path -/
  | start (p : SPath)

namespace Node

def sym : Node → Nat
  | .tok t => t.kind
  | .name _ => n_name
  | .path _ => n_path
  | .modulePath _ => n_module_path
  | .nkind _ => n_nkind
  | .tkind _ => n_tkind
  | .kind _ => n_kind
  | .tkinds _ => n_tkind_p
  | .taggedKinds _ => n_tagged_kind_p
  | .expr _ => n_expr
  | .block _ => n_block
  | .stmt _ => n_stmt
  | .exprs _ => n_expr_p
  | .exprs0 _ => n_expr_s
  | .type _ => n_tagged_type
  | .types _ => n_tagged_type_p
  | .types0 _ => n_tagged_type_s
  | .implicit _ => n_implicit_tagged_expr
  | .implicits _ => n_implicit_tagged_expr_p
  | .implicits0 _ => n_implicit_tagged_expr_s
  | .tag _ => n_tagged_expr
  | .tagged _ => n_tagged_expr_p
  | .binds _ => n_let_binding_p
  | .program _ => n_start
  | .start _ => n_start

def toks : Node → List Tok
  | .tok t => [t]
  | .name x => x.toks.map .lex
  | .path x => x.inner.map .lex
  | .modulePath x => x.toks.map .lex
  | .nkind x => x.toks.map .lex
  | .tkind x => x.toks.map .lex
  | .kind x => x.toks.map .lex
  | .tkinds x => x.toks.map .lex
  | .taggedKinds x => x.toks.map .lex
  | .expr x => x.toks.map .lex
  | .block x => x.toks.map .lex
  | .stmt x => x.toks.map .lex
  | .exprs x => x.toks.map .lex
  | .exprs0 x => x.toks.map .lex
  | .type x => x.toks.map .lex
  | .types x => x.toks.map .lex
  | .types0 x => x.toks.map .lex
  | .implicit x => x.toks.map .lex
  | .implicits x => x.toks.map .lex
  | .implicits0 x => x.toks.map .lex
  | .tag x => x.toks.map .lex
  | .tagged x => x.toks.map .lex
  | .binds x => x.toks.map .lex
  | .program s => .program :: s.toks.map .lex
  | .start p => .modulePath :: p.toks.map .lex

def height : Node → Nat
  | .tok _ => 1
  | .name x => x.height
  | .path x => x.innerHeight
  | .modulePath x => x.height
  | .nkind x => x.height
  | .tkind x => x.height
  | .kind x => x.height
  | .tkinds x => x.height
  | .taggedKinds x => x.height
  | .expr x => x.height
  | .block x => x.height
  | .stmt x => x.height
  | .exprs x => x.height
  | .exprs0 x => x.height
  | .type x => x.height
  | .types x => x.height
  | .types0 x => x.height
  | .implicit x => x.height
  | .implicits x => x.height
  | .implicits0 x => x.height
  | .tag x => x.height
  | .tagged x => x.height
  | .binds x => x.height
  | .program s => depth [1, s.height]
  | .start p => depth [1, p.height]

noncomputable def size : Node → Nat
  | .tok _ => 0
  | .name x => 4 * sizeOf x
  | .path x => 4 * sizeOf x
  | .modulePath x => 4 * sizeOf x + 1
  | .nkind x => 4 * sizeOf x
  | .tkind x => 4 * sizeOf x
  | .kind x => 4 * sizeOf x
  | .tkinds x => 4 * sizeOf x
  | .taggedKinds x => 4 * sizeOf x
  | .expr x => 4 * sizeOf x
  | .block x => 4 * sizeOf x
  | .stmt x => 4 * sizeOf x
  | .exprs x => 4 * sizeOf x
  | .exprs0 x => 4 * sizeOf x
  | .type x => 4 * sizeOf x
  | .types x => 4 * sizeOf x
  | .types0 x => 4 * sizeOf x
  | .implicit x => 4 * sizeOf x
  | .implicits x => 4 * sizeOf x
  | .implicits0 x => 4 * sizeOf x
  | .tag x => 4 * sizeOf x
  | .tagged x => 4 * sizeOf x
  | .binds x => 4 * sizeOf x
  | .program s => 4 * sizeOf s + 1
  | .start p => 4 * sizeOf p + 2

end Node

/-- A punctuation character. -/
abbrev T (c : Char) : Node := .tok (.lex (P c))
/-- A word. -/
abbrev W (w : Str) : Node := .tok (.lex (.word w))

/-- The productions. -/
inductive App : Rule → List Node → Node → Prop where
  | startProgram (s2 : SStmt) : App .startProgram [.tok .program, .stmt s2] (.program s2)
  | startPath (p2 : SPath) : App .startPath [.tok .modulePath, .modulePath p2] (.start p2)
  | nameWord (w1 : Str) : App .nameWord [W w1] (.name (.normal w1))
  | nameType (w1 : Str) : App .nameType [W w1, T '@'] (.name (.type w1))
  | pathWord (w1 : Str) : App .pathWord [W w1] (.path (.word w1))
  | pathSlash (p1 : SPath) (w3 : Str) : App .pathSlash [.path p1, T '/', W w3] (.path (.slash p1 w3))
  | modulePath (p2 : SPath) : App .modulePath [T '/', .path p2, T '%'] (.modulePath p2)
  | nkindBasic : App .nkindBasic [T '%'] (.nkind .basic)
  | nkindPoly (ks2 : STKinds) (k4 : SNKind) : App .nkindPoly [T '<', .tkinds ks2, T '>', .nkind k4] (.nkind (.poly ks2 k4))
  | tkindBasic : App .tkindBasic [T '@'] (.tkind .basic)
  | tkindPoly (ks2 : STKinds) (k4 : STKind) : App .tkindPoly [T '<', .tkinds ks2, T '>', .tkind k4] (.tkind (.poly ks2 k4))
  | kindN (k1 : SNKind) : App .kindN [.nkind k1] (.kind (.n k1))
  | kindT (k1 : STKind) : App .kindT [.tkind k1] (.kind (.t k1))
  | tkindsOne (k1 : STKind) : App .tkindsOne [.tkind k1] (.tkinds (.one k1))
  | tkindsMore (ks1 : STKinds) (k3 : STKind) : App .tkindsMore [.tkinds ks1, T ',', .tkind k3] (.tkinds (.more ks1 k3))
  | taggedKindsOne (k1 : SKind) (x2 : SName) : App .taggedKindsOne [.kind k1, .name x2] (.taggedKinds (.one k1 x2))
  | taggedKindsMore (ks1 : STaggedKinds) (k3 : SKind) (x4 : SName) : App .taggedKindsMore [.taggedKinds ks1, T ',', .kind k3, .name x4] (.taggedKinds (.more ks1 k3 x4))
  | exprTypeof (e3 : SExpr) : App .exprTypeof [T '@', T '<', .expr e3, T '>'] (.expr (.typeOf e3))
  | exprVar (x1 : SName) : App .exprVar [.name x1] (.expr (.var x1))
  | exprModule (p1 : SPath) : App .exprModule [.modulePath p1] (.expr (.modulePath p1))
  | exprStructType (ts3 : STypes0) : App .exprStructType [T '*', T '(', .types0 ts3, T ')'] (.expr (.structType ts3))
  | exprApply (e1 : SExpr) (es3 : SExprs0) : App .exprApply [.expr e1, T '(', .exprs0 es3, T ')'] (.expr (.apply e1 es3))
  | exprStruct (is3 : SImplicits0) : App .exprStruct [T '@', T '(', .implicits0 is3, T ')'] (.expr (.struct is3))
  | exprAccess (e1 : SExpr) (x3 : SName) : App .exprAccess [.expr e1, T '.', .name x3] (.expr (.access e1 x3))
  | exprCopy (e1 : SExpr) (is5 : SImplicits) : App .exprCopy [.expr e1, T '.', T '@', T '(', .implicits is5, T ')'] (.expr (.copy e1 is5))
  | exprUnionType (ts3 : STypes) : App .exprUnionType [T '+', T '(', .types ts3, T ')'] (.expr (.unionType ts3))
  | exprPackage (p3 : SPath) : App .exprPackage [T '%', T '(', .modulePath p3, T ')'] (.expr (.package p3))
  | exprPackageNone : App .exprPackageNone [T '%', T '(', T ')'] (.expr .packageNone)
  | exprUnion (e1 : SExpr) (x3 : SName) (e5 : SExpr) : App .exprUnion [.expr e1, T '(', .name x3, T ':', .expr e5, T ')'] (.expr (.union e1 x3 e5))
  | exprSelect (e1 : SExpr) (ts5 : STagged) : App .exprSelect [.expr e1, T '.', T '?', T '(', .tagged ts5, T ')'] (.expr (.select e1 ts5))
  | exprSelectDefault (e1 : SExpr) (ts5 : STagged) (e8 : SExpr) : App .exprSelectDefault [.expr e1, T '.', T '?', T '(', .tagged ts5, T ',', T ':', .expr e8, T ')'] (.expr (.selectDefault e1 ts5 e8))
  | exprPolyApply (e1 : SExpr) (es3 : SExprs) : App .exprPolyApply [.expr e1, T '<', .exprs es3, T '>'] (.expr (.polyApply e1 es3))
  | exprAbstractAccess (e1 : SExpr) : App .exprAbstractAccess [.expr e1, T '.', T '%'] (.expr (.abstractAccess e1))
  | exprCast (e1 : SExpr) (e4 : SExpr) (e7 : SExpr) : App .exprCast [.expr e1, T '.', T '<', .expr e4, T '>', T '(', .expr e7, T ')'] (.expr (.cast e1 e4 e7))
  | exprList (e1 : SExpr) (es3 : SExprs0) : App .exprList [.expr e1, T '[', .exprs0 es3, T ']'] (.expr (.list e1 es3))
  | exprLiteral (e1 : SExpr) (w3 : Str) : App .exprLiteral [.expr e1, T '|', W w3] (.expr (.literal e1 w3))
  | exprBlock (b1 : SBlock) : App .exprBlock [.block b1] (.expr (.block b1))
  | blockStmt (s2 : SStmt) : App .blockStmt [T '{', .stmt s2, T '}'] (.block (.braces s2))
  | blockFuncType (es2 : SExprs) (b4 : SBlock) : App .blockFuncType [T '(', .exprs es2, T ')', .block b4] (.block (.funcType es2 b4))
  | blockFunc (ts2 : STypes) (b4 : SBlock) : App .blockFunc [T '(', .types ts2, T ')', .block b4] (.block (.func ts2 b4))
  | blockPoly (ks2 : STaggedKinds) (b4 : SBlock) : App .blockPoly [T '<', .taggedKinds ks2, T '>', .block b4] (.block (.poly ks2 b4))
  | stmtExpr (e1 : SExpr) : App .stmtExpr [.expr e1, T ';'] (.stmt (.expr e1))
  | stmtLet (bs1 : SBinds) (s3 : SStmt) : App .stmtLet [.binds bs1, T ';', .stmt s3] (.stmt (.letE bs1 s3))
  | stmtBind (ts1 : STypes) (e4 : SExpr) (s6 : SStmt) : App .stmtBind [.types ts1, T '<', T '-', .expr e4, T ';', .stmt s6] (.stmt (.bind ts1 e4 s6))
  | stmtDefault (e1 : SExpr) (s3 : SStmt) : App .stmtDefault [.expr e1, T ';', .stmt s3] (.stmt (.default e1 s3))
  | exprsOne (e1 : SExpr) : App .exprsOne [.expr e1] (.exprs (.one e1))
  | exprsMore (es1 : SExprs) (e3 : SExpr) : App .exprsMore [.exprs es1, T ',', .expr e3] (.exprs (.more es1 e3))
  | exprsNone : App .exprsNone [] (.exprs0 .none)
  | exprsSome (es1 : SExprs) : App .exprsSome [.exprs es1] (.exprs0 (.some es1))
  | taggedType (e1 : SExpr) (x2 : SName) : App .taggedType [.expr e1, .name x2] (.type (.mk e1 x2))
  | taggedTypesOne (t1 : SType) : App .taggedTypesOne [.type t1] (.types (.one t1))
  | taggedTypesMore (ts1 : STypes) (t3 : SType) : App .taggedTypesMore [.types ts1, T ',', .type t3] (.types (.more ts1 t3))
  | taggedTypesNone : App .taggedTypesNone [] (.types0 .none)
  | taggedTypesSome (ts1 : STypes) : App .taggedTypesSome [.types ts1] (.types0 (.some ts1))
  | implicitVar (x1 : SName) : App .implicitVar [.name x1] (.implicit (.var x1))
  | implicitColon (x1 : SName) (e3 : SExpr) : App .implicitColon [.name x1, T ':', .expr e3] (.implicit (.colon x1 e3))
  | implicitsOne (i1 : SImplicit) : App .implicitsOne [.implicit i1] (.implicits (.one i1))
  | implicitsMore (is1 : SImplicits) (i3 : SImplicit) : App .implicitsMore [.implicits is1, T ',', .implicit i3] (.implicits (.more is1 i3))
  | implicitsNone : App .implicitsNone [] (.implicits0 .none)
  | implicitsSome (is1 : SImplicits) : App .implicitsSome [.implicits is1] (.implicits0 (.some is1))
  | taggedExpr (x1 : SName) (e3 : SExpr) : App .taggedExpr [.name x1, T ':', .expr e3] (.tag (.mk x1 e3))
  | taggedExprsOne (t1 : STag) : App .taggedExprsOne [.tag t1] (.tagged (.one t1))
  | taggedExprsMore (ts1 : STagged) (t3 : STag) : App .taggedExprsMore [.tagged ts1, T ',', .tag t3] (.tagged (.more ts1 t3))
  | bindType (e1 : SExpr) (x2 : SName) (e4 : SExpr) : App .bindType [.expr e1, .name x2, T '=', .expr e4] (.binds (.type e1 x2 e4))
  | bindKind (k1 : SKind) (x2 : SName) (e4 : SExpr) : App .bindKind [.kind k1, .name x2, T '=', .expr e4] (.binds (.kind k1 x2 e4))
  | bindMoreType (bs1 : SBinds) (e3 : SExpr) (x4 : SName) (e6 : SExpr) : App .bindMoreType [.binds bs1, T ',', .expr e3, .name x4, T '=', .expr e6] (.binds (.moreType bs1 e3 x4 e6))
  | bindMoreKind (bs1 : SBinds) (k3 : SKind) (x4 : SName) (e6 : SExpr) : App .bindMoreKind [.binds bs1, T ',', .kind k3, .name x4, T '=', .expr e6] (.binds (.moreKind bs1 k3 x4 e6))

/-- What a production builds. -/
def build (r : Rule) (vs : List Node) : Option Node :=
  match r with
  | .accept => none
  | .startProgram => match vs with | [_, .stmt s2] => some (.program s2) | _ => none
  | .startPath => match vs with | [_, .modulePath p2] => some (.start p2) | _ => none
  | .nameWord => match vs with | [.tok (.lex (.word w1))] => some (.name (.normal w1)) | _ => none
  | .nameType => match vs with | [.tok (.lex (.word w1)), _] => some (.name (.type w1)) | _ => none
  | .pathWord => match vs with | [.tok (.lex (.word w1))] => some (.path (.word w1)) | _ => none
  | .pathSlash => match vs with | [.path p1, _, .tok (.lex (.word w3))] => some (.path (.slash p1 w3)) | _ => none
  | .modulePath => match vs with | [_, .path p2, _] => some (.modulePath p2) | _ => none
  | .nkindBasic => match vs with | [_] => some (.nkind .basic) | _ => none
  | .nkindPoly => match vs with | [_, .tkinds ks2, _, .nkind k4] => some (.nkind (.poly ks2 k4)) | _ => none
  | .tkindBasic => match vs with | [_] => some (.tkind .basic) | _ => none
  | .tkindPoly => match vs with | [_, .tkinds ks2, _, .tkind k4] => some (.tkind (.poly ks2 k4)) | _ => none
  | .kindN => match vs with | [.nkind k1] => some (.kind (.n k1)) | _ => none
  | .kindT => match vs with | [.tkind k1] => some (.kind (.t k1)) | _ => none
  | .tkindsOne => match vs with | [.tkind k1] => some (.tkinds (.one k1)) | _ => none
  | .tkindsMore => match vs with | [.tkinds ks1, _, .tkind k3] => some (.tkinds (.more ks1 k3)) | _ => none
  | .taggedKindsOne => match vs with | [.kind k1, .name x2] => some (.taggedKinds (.one k1 x2)) | _ => none
  | .taggedKindsMore => match vs with | [.taggedKinds ks1, _, .kind k3, .name x4] => some (.taggedKinds (.more ks1 k3 x4)) | _ => none
  | .exprTypeof => match vs with | [_, _, .expr e3, _] => some (.expr (.typeOf e3)) | _ => none
  | .exprVar => match vs with | [.name x1] => some (.expr (.var x1)) | _ => none
  | .exprModule => match vs with | [.modulePath p1] => some (.expr (.modulePath p1)) | _ => none
  | .exprStructType => match vs with | [_, _, .types0 ts3, _] => some (.expr (.structType ts3)) | _ => none
  | .exprApply => match vs with | [.expr e1, _, .exprs0 es3, _] => some (.expr (.apply e1 es3)) | _ => none
  | .exprStruct => match vs with | [_, _, .implicits0 is3, _] => some (.expr (.struct is3)) | _ => none
  | .exprAccess => match vs with | [.expr e1, _, .name x3] => some (.expr (.access e1 x3)) | _ => none
  | .exprCopy => match vs with | [.expr e1, _, _, _, .implicits is5, _] => some (.expr (.copy e1 is5)) | _ => none
  | .exprUnionType => match vs with | [_, _, .types ts3, _] => some (.expr (.unionType ts3)) | _ => none
  | .exprPackage => match vs with | [_, _, .modulePath p3, _] => some (.expr (.package p3)) | _ => none
  | .exprPackageNone => match vs with | [_, _, _] => some (.expr .packageNone) | _ => none
  | .exprUnion => match vs with | [.expr e1, _, .name x3, _, .expr e5, _] => some (.expr (.union e1 x3 e5)) | _ => none
  | .exprSelect => match vs with | [.expr e1, _, _, _, .tagged ts5, _] => some (.expr (.select e1 ts5)) | _ => none
  | .exprSelectDefault => match vs with | [.expr e1, _, _, _, .tagged ts5, _, _, .expr e8, _] => some (.expr (.selectDefault e1 ts5 e8)) | _ => none
  | .exprPolyApply => match vs with | [.expr e1, _, .exprs es3, _] => some (.expr (.polyApply e1 es3)) | _ => none
  | .exprAbstractAccess => match vs with | [.expr e1, _, _] => some (.expr (.abstractAccess e1)) | _ => none
  | .exprCast => match vs with | [.expr e1, _, _, .expr e4, _, _, .expr e7, _] => some (.expr (.cast e1 e4 e7)) | _ => none
  | .exprList => match vs with | [.expr e1, _, .exprs0 es3, _] => some (.expr (.list e1 es3)) | _ => none
  | .exprLiteral => match vs with | [.expr e1, _, .tok (.lex (.word w3))] => some (.expr (.literal e1 w3)) | _ => none
  | .exprBlock => match vs with | [.block b1] => some (.expr (.block b1)) | _ => none
  | .blockStmt => match vs with | [_, .stmt s2, _] => some (.block (.braces s2)) | _ => none
  | .blockFuncType => match vs with | [_, .exprs es2, _, .block b4] => some (.block (.funcType es2 b4)) | _ => none
  | .blockFunc => match vs with | [_, .types ts2, _, .block b4] => some (.block (.func ts2 b4)) | _ => none
  | .blockPoly => match vs with | [_, .taggedKinds ks2, _, .block b4] => some (.block (.poly ks2 b4)) | _ => none
  | .stmtExpr => match vs with | [.expr e1, _] => some (.stmt (.expr e1)) | _ => none
  | .stmtLet => match vs with | [.binds bs1, _, .stmt s3] => some (.stmt (.letE bs1 s3)) | _ => none
  | .stmtBind => match vs with | [.types ts1, _, _, .expr e4, _, .stmt s6] => some (.stmt (.bind ts1 e4 s6)) | _ => none
  | .stmtDefault => match vs with | [.expr e1, _, .stmt s3] => some (.stmt (.default e1 s3)) | _ => none
  | .exprsOne => match vs with | [.expr e1] => some (.exprs (.one e1)) | _ => none
  | .exprsMore => match vs with | [.exprs es1, _, .expr e3] => some (.exprs (.more es1 e3)) | _ => none
  | .exprsNone => match vs with | [] => some (.exprs0 .none) | _ => none
  | .exprsSome => match vs with | [.exprs es1] => some (.exprs0 (.some es1)) | _ => none
  | .taggedType => match vs with | [.expr e1, .name x2] => some (.type (.mk e1 x2)) | _ => none
  | .taggedTypesOne => match vs with | [.type t1] => some (.types (.one t1)) | _ => none
  | .taggedTypesMore => match vs with | [.types ts1, _, .type t3] => some (.types (.more ts1 t3)) | _ => none
  | .taggedTypesNone => match vs with | [] => some (.types0 .none) | _ => none
  | .taggedTypesSome => match vs with | [.types ts1] => some (.types0 (.some ts1)) | _ => none
  | .implicitVar => match vs with | [.name x1] => some (.implicit (.var x1)) | _ => none
  | .implicitColon => match vs with | [.name x1, _, .expr e3] => some (.implicit (.colon x1 e3)) | _ => none
  | .implicitsOne => match vs with | [.implicit i1] => some (.implicits (.one i1)) | _ => none
  | .implicitsMore => match vs with | [.implicits is1, _, .implicit i3] => some (.implicits (.more is1 i3)) | _ => none
  | .implicitsNone => match vs with | [] => some (.implicits0 .none) | _ => none
  | .implicitsSome => match vs with | [.implicits is1] => some (.implicits0 (.some is1)) | _ => none
  | .taggedExpr => match vs with | [.name x1, _, .expr e3] => some (.tag (.mk x1 e3)) | _ => none
  | .taggedExprsOne => match vs with | [.tag t1] => some (.tagged (.one t1)) | _ => none
  | .taggedExprsMore => match vs with | [.tagged ts1, _, .tag t3] => some (.tagged (.more ts1 t3)) | _ => none
  | .bindType => match vs with | [.expr e1, .name x2, _, .expr e4] => some (.binds (.type e1 x2 e4)) | _ => none
  | .bindKind => match vs with | [.kind k1, .name x2, _, .expr e4] => some (.binds (.kind k1 x2 e4)) | _ => none
  | .bindMoreType => match vs with | [.binds bs1, _, .expr e3, .name x4, _, .expr e6] => some (.binds (.moreType bs1 e3 x4 e6)) | _ => none
  | .bindMoreKind => match vs with | [.binds bs1, _, .kind k3, .name x4, _, .expr e6] => some (.binds (.moreKind bs1 k3 x4 e6)) | _ => none

theorem App.build {r vs v} (h : App r vs v) : build r vs = some v := by cases h <;> rfl

theorem App.sym {r vs v} (h : App r vs v) : v.sym = r.lhs := by cases h <;> rfl

/-! ### Which node a symbol is -/

theorem kind_punct {t : Tok} {k} (h : t.kind = k) (hk : 5 ≤ k) : ∃ b, t = .lex (.punct b) ∧ (b, k) ∈ charKinds := by
  match t with
  | .program => subst h; exact absurd hk (by decide)
  | .modulePath => subst h; exact absurd hk (by decide)
  | .lex .end_ => subst h; exact absurd hk (by decide)
  | .lex (.word _) => subst h; exact absurd hk (show ¬ 5 ≤ t_word by decide)
  | .lex (.punct b) =>
    refine ⟨b, rfl, ?_⟩
    simp only [Tok.kind] at h
    cases hl : charKinds.lookup b with
    | none => rw [hl] at h; subst h; exact absurd hk (by decide)
    | some k' =>
      rw [hl] at h
      simp only [Option.getD_some] at h
      subst h
      have : ∀ l : List (Text.Byte × Nat), l.lookup b = some k' → (b, k') ∈ l := by
        intro l
        induction l with
        | nil => intro h; cases h
        | cons x l ih =>
          intro h
          obtain ⟨y, c⟩ := x
          simp only [List.lookup] at h
          split at h
          · rename_i he; cases h; rw [beq_iff_eq] at he; subst he; exact .head _
          · exact .tail _ (ih h)
      exact this _ hl

/-- The character of a terminal symbol. -/
def charOf (k : Nat) : Text.Byte := ((charKinds.map Prod.swap).lookup k).getD 0

theorem charOf_ok : ∀ x ∈ charKinds, charOf x.2 = x.1 := by decide +kernel

theorem node_punct {v : Node} {k} (h : v.sym = k) (hk : 5 ≤ k) (hk' : k < numTerminals) : v = .tok (.lex (.punct (charOf k))) := by
  cases v with
  | tok t =>
    obtain ⟨b, rfl, hm⟩ := kind_punct h hk
    rw [charOf_ok _ hm]
  | _ => simp only [Node.sym] at h; subst h; exact absurd hk' (by decide)

theorem inv_at {v : Node} (h : v.sym = t_at) : v = T '@' := node_punct h (by decide) (by decide)
theorem inv_slash {v : Node} (h : v.sym = t_slash) : v = T '/' := node_punct h (by decide) (by decide)
theorem inv_percent {v : Node} (h : v.sym = t_percent) : v = T '%' := node_punct h (by decide) (by decide)
theorem inv_lt {v : Node} (h : v.sym = t_lt) : v = T '<' := node_punct h (by decide) (by decide)
theorem inv_gt {v : Node} (h : v.sym = t_gt) : v = T '>' := node_punct h (by decide) (by decide)
theorem inv_comma {v : Node} (h : v.sym = t_comma) : v = T ',' := node_punct h (by decide) (by decide)
theorem inv_star {v : Node} (h : v.sym = t_star) : v = T '*' := node_punct h (by decide) (by decide)
theorem inv_lpar {v : Node} (h : v.sym = t_lpar) : v = T '(' := node_punct h (by decide) (by decide)
theorem inv_rpar {v : Node} (h : v.sym = t_rpar) : v = T ')' := node_punct h (by decide) (by decide)
theorem inv_dot {v : Node} (h : v.sym = t_dot) : v = T '.' := node_punct h (by decide) (by decide)
theorem inv_plus {v : Node} (h : v.sym = t_plus) : v = T '+' := node_punct h (by decide) (by decide)
theorem inv_colon {v : Node} (h : v.sym = t_colon) : v = T ':' := node_punct h (by decide) (by decide)
theorem inv_quest {v : Node} (h : v.sym = t_quest) : v = T '?' := node_punct h (by decide) (by decide)
theorem inv_lbrack {v : Node} (h : v.sym = t_lbrack) : v = T '[' := node_punct h (by decide) (by decide)
theorem inv_rbrack {v : Node} (h : v.sym = t_rbrack) : v = T ']' := node_punct h (by decide) (by decide)
theorem inv_bar {v : Node} (h : v.sym = t_bar) : v = T '|' := node_punct h (by decide) (by decide)
theorem inv_lbrace {v : Node} (h : v.sym = t_lbrace) : v = T '{' := node_punct h (by decide) (by decide)
theorem inv_rbrace {v : Node} (h : v.sym = t_rbrace) : v = T '}' := node_punct h (by decide) (by decide)
theorem inv_semi {v : Node} (h : v.sym = t_semi) : v = T ';' := node_punct h (by decide) (by decide)
theorem inv_minus {v : Node} (h : v.sym = t_minus) : v = T '-' := node_punct h (by decide) (by decide)
theorem inv_equals {v : Node} (h : v.sym = t_equals) : v = T '=' := node_punct h (by decide) (by decide)

theorem lookup_ge {b k} (h : charKinds.lookup b = some k) : 5 ≤ k := by
  have : ∀ l : List (Text.Byte × Nat), (∀ x ∈ l, 5 ≤ x.2) → l.lookup b = some k → 5 ≤ k := by
    intro l
    induction l with
    | nil => intro _ h; cases h
    | cons x l ih =>
      intro hl h
      obtain ⟨y, c⟩ := x
      simp only [List.lookup] at h
      split at h
      · cases h; exact hl _ (.head _)
      · exact ih (fun x hx => hl x (.tail _ hx)) h
  exact this charKinds (by decide) h

theorem inv_word {v : Node} (h : v.sym = t_word) : ∃ w, v = W w := by
  cases v with
  | tok t =>
    match t with
    | .lex (.word w) => exact ⟨w, rfl⟩
    | .program => cases h
    | .modulePath => cases h
    | .lex .end_ => cases h
    | .lex (.punct b) =>
      simp only [Node.sym, Tok.kind] at h
      cases hl : charKinds.lookup b with
      | none => rw [hl] at h; cases h
      | some k =>
        rw [hl] at h
        have := lookup_ge hl
        simp only [Option.getD_some] at h
        subst h
        exact absurd this (by decide)
  | _ => simp only [Node.sym] at h; exact absurd h (by decide)

theorem inv_parseProgram {v : Node} (h : v.sym = t_parseProgram) : v = .tok .program := by
  cases v with
  | tok t =>
    match t with
    | .program => rfl
    | .modulePath => cases h
    | .lex .end_ => cases h
    | .lex (.word _) => cases h
    | .lex (.punct b) =>
      simp only [Node.sym, Tok.kind] at h
      cases hl : charKinds.lookup b with
      | none => rw [hl] at h; cases h
      | some k =>
        rw [hl] at h
        have := lookup_ge hl
        simp only [Option.getD_some] at h
        subst h
        exact absurd this (by decide)
  | _ => simp only [Node.sym] at h; exact absurd h (by decide)

theorem inv_parseModulePath {v : Node} (h : v.sym = t_parseModulePath) : v = .tok .modulePath := by
  cases v with
  | tok t =>
    match t with
    | .modulePath => rfl
    | .program => cases h
    | .lex .end_ => cases h
    | .lex (.word _) => cases h
    | .lex (.punct b) =>
      simp only [Node.sym, Tok.kind] at h
      cases hl : charKinds.lookup b with
      | none => rw [hl] at h; cases h
      | some k =>
        rw [hl] at h
        have := lookup_ge hl
        simp only [Option.getD_some] at h
        subst h
        exact absurd this (by decide)
  | _ => simp only [Node.sym] at h; exact absurd h (by decide)

theorem tok_nonterminal {t : Tok} {k} (h : (Node.tok t).sym = k) (hk : numTerminals ≤ k) : False := by
  have := t.kind_lt
  simp only [Node.sym] at h
  omega

theorem inv_name {v : Node} (h : v.sym = n_name) : ∃ x, v = .name x := by
  cases v with
  | name x => exact ⟨x, rfl⟩
  | tok t => exact (tok_nonterminal h (by decide)).elim
  | _ => simp only [Node.sym] at h; exact absurd h (by decide)

theorem inv_path {v : Node} (h : v.sym = n_path) : ∃ x, v = .path x := by
  cases v with
  | path x => exact ⟨x, rfl⟩
  | tok t => exact (tok_nonterminal h (by decide)).elim
  | _ => simp only [Node.sym] at h; exact absurd h (by decide)

theorem inv_modulePath {v : Node} (h : v.sym = n_module_path) : ∃ x, v = .modulePath x := by
  cases v with
  | modulePath x => exact ⟨x, rfl⟩
  | tok t => exact (tok_nonterminal h (by decide)).elim
  | _ => simp only [Node.sym] at h; exact absurd h (by decide)

theorem inv_nkind {v : Node} (h : v.sym = n_nkind) : ∃ x, v = .nkind x := by
  cases v with
  | nkind x => exact ⟨x, rfl⟩
  | tok t => exact (tok_nonterminal h (by decide)).elim
  | _ => simp only [Node.sym] at h; exact absurd h (by decide)

theorem inv_tkind {v : Node} (h : v.sym = n_tkind) : ∃ x, v = .tkind x := by
  cases v with
  | tkind x => exact ⟨x, rfl⟩
  | tok t => exact (tok_nonterminal h (by decide)).elim
  | _ => simp only [Node.sym] at h; exact absurd h (by decide)

theorem inv_kind {v : Node} (h : v.sym = n_kind) : ∃ x, v = .kind x := by
  cases v with
  | kind x => exact ⟨x, rfl⟩
  | tok t => exact (tok_nonterminal h (by decide)).elim
  | _ => simp only [Node.sym] at h; exact absurd h (by decide)

theorem inv_tkinds {v : Node} (h : v.sym = n_tkind_p) : ∃ x, v = .tkinds x := by
  cases v with
  | tkinds x => exact ⟨x, rfl⟩
  | tok t => exact (tok_nonterminal h (by decide)).elim
  | _ => simp only [Node.sym] at h; exact absurd h (by decide)

theorem inv_taggedKinds {v : Node} (h : v.sym = n_tagged_kind_p) : ∃ x, v = .taggedKinds x := by
  cases v with
  | taggedKinds x => exact ⟨x, rfl⟩
  | tok t => exact (tok_nonterminal h (by decide)).elim
  | _ => simp only [Node.sym] at h; exact absurd h (by decide)

theorem inv_expr {v : Node} (h : v.sym = n_expr) : ∃ x, v = .expr x := by
  cases v with
  | expr x => exact ⟨x, rfl⟩
  | tok t => exact (tok_nonterminal h (by decide)).elim
  | _ => simp only [Node.sym] at h; exact absurd h (by decide)

theorem inv_block {v : Node} (h : v.sym = n_block) : ∃ x, v = .block x := by
  cases v with
  | block x => exact ⟨x, rfl⟩
  | tok t => exact (tok_nonterminal h (by decide)).elim
  | _ => simp only [Node.sym] at h; exact absurd h (by decide)

theorem inv_stmt {v : Node} (h : v.sym = n_stmt) : ∃ x, v = .stmt x := by
  cases v with
  | stmt x => exact ⟨x, rfl⟩
  | tok t => exact (tok_nonterminal h (by decide)).elim
  | _ => simp only [Node.sym] at h; exact absurd h (by decide)

theorem inv_exprs {v : Node} (h : v.sym = n_expr_p) : ∃ x, v = .exprs x := by
  cases v with
  | exprs x => exact ⟨x, rfl⟩
  | tok t => exact (tok_nonterminal h (by decide)).elim
  | _ => simp only [Node.sym] at h; exact absurd h (by decide)

theorem inv_exprs0 {v : Node} (h : v.sym = n_expr_s) : ∃ x, v = .exprs0 x := by
  cases v with
  | exprs0 x => exact ⟨x, rfl⟩
  | tok t => exact (tok_nonterminal h (by decide)).elim
  | _ => simp only [Node.sym] at h; exact absurd h (by decide)

theorem inv_type {v : Node} (h : v.sym = n_tagged_type) : ∃ x, v = .type x := by
  cases v with
  | type x => exact ⟨x, rfl⟩
  | tok t => exact (tok_nonterminal h (by decide)).elim
  | _ => simp only [Node.sym] at h; exact absurd h (by decide)

theorem inv_types {v : Node} (h : v.sym = n_tagged_type_p) : ∃ x, v = .types x := by
  cases v with
  | types x => exact ⟨x, rfl⟩
  | tok t => exact (tok_nonterminal h (by decide)).elim
  | _ => simp only [Node.sym] at h; exact absurd h (by decide)

theorem inv_types0 {v : Node} (h : v.sym = n_tagged_type_s) : ∃ x, v = .types0 x := by
  cases v with
  | types0 x => exact ⟨x, rfl⟩
  | tok t => exact (tok_nonterminal h (by decide)).elim
  | _ => simp only [Node.sym] at h; exact absurd h (by decide)

theorem inv_implicit {v : Node} (h : v.sym = n_implicit_tagged_expr) : ∃ x, v = .implicit x := by
  cases v with
  | implicit x => exact ⟨x, rfl⟩
  | tok t => exact (tok_nonterminal h (by decide)).elim
  | _ => simp only [Node.sym] at h; exact absurd h (by decide)

theorem inv_implicits {v : Node} (h : v.sym = n_implicit_tagged_expr_p) : ∃ x, v = .implicits x := by
  cases v with
  | implicits x => exact ⟨x, rfl⟩
  | tok t => exact (tok_nonterminal h (by decide)).elim
  | _ => simp only [Node.sym] at h; exact absurd h (by decide)

theorem inv_implicits0 {v : Node} (h : v.sym = n_implicit_tagged_expr_s) : ∃ x, v = .implicits0 x := by
  cases v with
  | implicits0 x => exact ⟨x, rfl⟩
  | tok t => exact (tok_nonterminal h (by decide)).elim
  | _ => simp only [Node.sym] at h; exact absurd h (by decide)

theorem inv_tag {v : Node} (h : v.sym = n_tagged_expr) : ∃ x, v = .tag x := by
  cases v with
  | tag x => exact ⟨x, rfl⟩
  | tok t => exact (tok_nonterminal h (by decide)).elim
  | _ => simp only [Node.sym] at h; exact absurd h (by decide)

theorem inv_tagged {v : Node} (h : v.sym = n_tagged_expr_p) : ∃ x, v = .tagged x := by
  cases v with
  | tagged x => exact ⟨x, rfl⟩
  | tok t => exact (tok_nonterminal h (by decide)).elim
  | _ => simp only [Node.sym] at h; exact absurd h (by decide)

theorem inv_binds {v : Node} (h : v.sym = n_let_binding_p) : ∃ x, v = .binds x := by
  cases v with
  | binds x => exact ⟨x, rfl⟩
  | tok t => exact (tok_nonterminal h (by decide)).elim
  | _ => simp only [Node.sym] at h; exact absurd h (by decide)

theorem map1 {vs : List Node} {x1} (h : vs.map Node.sym = [x1]) :
    ∃ v1, vs = [v1] ∧ v1.sym = x1 := by
  match vs, h with
  | [v1], h => simp at h; exact ⟨v1, rfl, h⟩

theorem map2 {vs : List Node} {x1 x2} (h : vs.map Node.sym = [x1, x2]) :
    ∃ v1 v2, vs = [v1, v2] ∧ v1.sym = x1 ∧ v2.sym = x2 := by
  match vs, h with
  | [v1, v2], h => simp at h; exact ⟨v1, v2, rfl, h⟩

theorem map3 {vs : List Node} {x1 x2 x3} (h : vs.map Node.sym = [x1, x2, x3]) :
    ∃ v1 v2 v3, vs = [v1, v2, v3] ∧ v1.sym = x1 ∧ v2.sym = x2 ∧ v3.sym = x3 := by
  match vs, h with
  | [v1, v2, v3], h => simp at h; exact ⟨v1, v2, v3, rfl, h⟩

theorem map4 {vs : List Node} {x1 x2 x3 x4} (h : vs.map Node.sym = [x1, x2, x3, x4]) :
    ∃ v1 v2 v3 v4, vs = [v1, v2, v3, v4] ∧ v1.sym = x1 ∧ v2.sym = x2 ∧ v3.sym = x3 ∧ v4.sym = x4 := by
  match vs, h with
  | [v1, v2, v3, v4], h => simp at h; exact ⟨v1, v2, v3, v4, rfl, h⟩

theorem map5 {vs : List Node} {x1 x2 x3 x4 x5} (h : vs.map Node.sym = [x1, x2, x3, x4, x5]) :
    ∃ v1 v2 v3 v4 v5, vs = [v1, v2, v3, v4, v5] ∧ v1.sym = x1 ∧ v2.sym = x2 ∧ v3.sym = x3 ∧ v4.sym = x4 ∧ v5.sym = x5 := by
  match vs, h with
  | [v1, v2, v3, v4, v5], h => simp at h; exact ⟨v1, v2, v3, v4, v5, rfl, h⟩

theorem map6 {vs : List Node} {x1 x2 x3 x4 x5 x6} (h : vs.map Node.sym = [x1, x2, x3, x4, x5, x6]) :
    ∃ v1 v2 v3 v4 v5 v6, vs = [v1, v2, v3, v4, v5, v6] ∧ v1.sym = x1 ∧ v2.sym = x2 ∧ v3.sym = x3 ∧ v4.sym = x4 ∧ v5.sym = x5 ∧ v6.sym = x6 := by
  match vs, h with
  | [v1, v2, v3, v4, v5, v6], h => simp at h; exact ⟨v1, v2, v3, v4, v5, v6, rfl, h⟩

theorem map7 {vs : List Node} {x1 x2 x3 x4 x5 x6 x7} (h : vs.map Node.sym = [x1, x2, x3, x4, x5, x6, x7]) :
    ∃ v1 v2 v3 v4 v5 v6 v7, vs = [v1, v2, v3, v4, v5, v6, v7] ∧ v1.sym = x1 ∧ v2.sym = x2 ∧ v3.sym = x3 ∧ v4.sym = x4 ∧ v5.sym = x5 ∧ v6.sym = x6 ∧ v7.sym = x7 := by
  match vs, h with
  | [v1, v2, v3, v4, v5, v6, v7], h => simp at h; exact ⟨v1, v2, v3, v4, v5, v6, v7, rfl, h⟩

theorem map8 {vs : List Node} {x1 x2 x3 x4 x5 x6 x7 x8} (h : vs.map Node.sym = [x1, x2, x3, x4, x5, x6, x7, x8]) :
    ∃ v1 v2 v3 v4 v5 v6 v7 v8, vs = [v1, v2, v3, v4, v5, v6, v7, v8] ∧ v1.sym = x1 ∧ v2.sym = x2 ∧ v3.sym = x3 ∧ v4.sym = x4 ∧ v5.sym = x5 ∧ v6.sym = x6 ∧ v7.sym = x7 ∧ v8.sym = x8 := by
  match vs, h with
  | [v1, v2, v3, v4, v5, v6, v7, v8], h => simp at h; exact ⟨v1, v2, v3, v4, v5, v6, v7, v8, rfl, h⟩

theorem map9 {vs : List Node} {x1 x2 x3 x4 x5 x6 x7 x8 x9} (h : vs.map Node.sym = [x1, x2, x3, x4, x5, x6, x7, x8, x9]) :
    ∃ v1 v2 v3 v4 v5 v6 v7 v8 v9, vs = [v1, v2, v3, v4, v5, v6, v7, v8, v9] ∧ v1.sym = x1 ∧ v2.sym = x2 ∧ v3.sym = x3 ∧ v4.sym = x4 ∧ v5.sym = x5 ∧ v6.sym = x6 ∧ v7.sym = x7 ∧ v8.sym = x8 ∧ v9.sym = x9 := by
  match vs, h with
  | [v1, v2, v3, v4, v5, v6, v7, v8, v9], h => simp at h; exact ⟨v1, v2, v3, v4, v5, v6, v7, v8, v9, rfl, h⟩

/-- Symbols as on the right hand side of a production. -/
theorem app_of_syms {r vs} (hr : r ≠ .accept) (h : vs.map Node.sym = r.rhs) : ∃ v, App r vs v := by
  cases r with
  | accept => exact absurd rfl hr
  | startProgram =>
    obtain ⟨v1, v2, rfl, h1, h2⟩ := map2 h
    obtain rfl := inv_parseProgram h1
    obtain ⟨a2, rfl⟩ := inv_stmt h2
    exact ⟨_, .startProgram _⟩
  | startPath =>
    obtain ⟨v1, v2, rfl, h1, h2⟩ := map2 h
    obtain rfl := inv_parseModulePath h1
    obtain ⟨a2, rfl⟩ := inv_modulePath h2
    exact ⟨_, .startPath _⟩
  | nameWord =>
    obtain ⟨v1, rfl, h1⟩ := map1 h
    obtain ⟨a1, rfl⟩ := inv_word h1
    exact ⟨_, .nameWord _⟩
  | nameType =>
    obtain ⟨v1, v2, rfl, h1, h2⟩ := map2 h
    obtain ⟨a1, rfl⟩ := inv_word h1
    obtain rfl := inv_at h2
    exact ⟨_, .nameType _⟩
  | pathWord =>
    obtain ⟨v1, rfl, h1⟩ := map1 h
    obtain ⟨a1, rfl⟩ := inv_word h1
    exact ⟨_, .pathWord _⟩
  | pathSlash =>
    obtain ⟨v1, v2, v3, rfl, h1, h2, h3⟩ := map3 h
    obtain ⟨a1, rfl⟩ := inv_path h1
    obtain rfl := inv_slash h2
    obtain ⟨a3, rfl⟩ := inv_word h3
    exact ⟨_, .pathSlash _ _⟩
  | modulePath =>
    obtain ⟨v1, v2, v3, rfl, h1, h2, h3⟩ := map3 h
    obtain rfl := inv_slash h1
    obtain ⟨a2, rfl⟩ := inv_path h2
    obtain rfl := inv_percent h3
    exact ⟨_, .modulePath _⟩
  | nkindBasic =>
    obtain ⟨v1, rfl, h1⟩ := map1 h
    obtain rfl := inv_percent h1
    exact ⟨_, .nkindBasic⟩
  | nkindPoly =>
    obtain ⟨v1, v2, v3, v4, rfl, h1, h2, h3, h4⟩ := map4 h
    obtain rfl := inv_lt h1
    obtain ⟨a2, rfl⟩ := inv_tkinds h2
    obtain rfl := inv_gt h3
    obtain ⟨a4, rfl⟩ := inv_nkind h4
    exact ⟨_, .nkindPoly _ _⟩
  | tkindBasic =>
    obtain ⟨v1, rfl, h1⟩ := map1 h
    obtain rfl := inv_at h1
    exact ⟨_, .tkindBasic⟩
  | tkindPoly =>
    obtain ⟨v1, v2, v3, v4, rfl, h1, h2, h3, h4⟩ := map4 h
    obtain rfl := inv_lt h1
    obtain ⟨a2, rfl⟩ := inv_tkinds h2
    obtain rfl := inv_gt h3
    obtain ⟨a4, rfl⟩ := inv_tkind h4
    exact ⟨_, .tkindPoly _ _⟩
  | kindN =>
    obtain ⟨v1, rfl, h1⟩ := map1 h
    obtain ⟨a1, rfl⟩ := inv_nkind h1
    exact ⟨_, .kindN _⟩
  | kindT =>
    obtain ⟨v1, rfl, h1⟩ := map1 h
    obtain ⟨a1, rfl⟩ := inv_tkind h1
    exact ⟨_, .kindT _⟩
  | tkindsOne =>
    obtain ⟨v1, rfl, h1⟩ := map1 h
    obtain ⟨a1, rfl⟩ := inv_tkind h1
    exact ⟨_, .tkindsOne _⟩
  | tkindsMore =>
    obtain ⟨v1, v2, v3, rfl, h1, h2, h3⟩ := map3 h
    obtain ⟨a1, rfl⟩ := inv_tkinds h1
    obtain rfl := inv_comma h2
    obtain ⟨a3, rfl⟩ := inv_tkind h3
    exact ⟨_, .tkindsMore _ _⟩
  | taggedKindsOne =>
    obtain ⟨v1, v2, rfl, h1, h2⟩ := map2 h
    obtain ⟨a1, rfl⟩ := inv_kind h1
    obtain ⟨a2, rfl⟩ := inv_name h2
    exact ⟨_, .taggedKindsOne _ _⟩
  | taggedKindsMore =>
    obtain ⟨v1, v2, v3, v4, rfl, h1, h2, h3, h4⟩ := map4 h
    obtain ⟨a1, rfl⟩ := inv_taggedKinds h1
    obtain rfl := inv_comma h2
    obtain ⟨a3, rfl⟩ := inv_kind h3
    obtain ⟨a4, rfl⟩ := inv_name h4
    exact ⟨_, .taggedKindsMore _ _ _⟩
  | exprTypeof =>
    obtain ⟨v1, v2, v3, v4, rfl, h1, h2, h3, h4⟩ := map4 h
    obtain rfl := inv_at h1
    obtain rfl := inv_lt h2
    obtain ⟨a3, rfl⟩ := inv_expr h3
    obtain rfl := inv_gt h4
    exact ⟨_, .exprTypeof _⟩
  | exprVar =>
    obtain ⟨v1, rfl, h1⟩ := map1 h
    obtain ⟨a1, rfl⟩ := inv_name h1
    exact ⟨_, .exprVar _⟩
  | exprModule =>
    obtain ⟨v1, rfl, h1⟩ := map1 h
    obtain ⟨a1, rfl⟩ := inv_modulePath h1
    exact ⟨_, .exprModule _⟩
  | exprStructType =>
    obtain ⟨v1, v2, v3, v4, rfl, h1, h2, h3, h4⟩ := map4 h
    obtain rfl := inv_star h1
    obtain rfl := inv_lpar h2
    obtain ⟨a3, rfl⟩ := inv_types0 h3
    obtain rfl := inv_rpar h4
    exact ⟨_, .exprStructType _⟩
  | exprApply =>
    obtain ⟨v1, v2, v3, v4, rfl, h1, h2, h3, h4⟩ := map4 h
    obtain ⟨a1, rfl⟩ := inv_expr h1
    obtain rfl := inv_lpar h2
    obtain ⟨a3, rfl⟩ := inv_exprs0 h3
    obtain rfl := inv_rpar h4
    exact ⟨_, .exprApply _ _⟩
  | exprStruct =>
    obtain ⟨v1, v2, v3, v4, rfl, h1, h2, h3, h4⟩ := map4 h
    obtain rfl := inv_at h1
    obtain rfl := inv_lpar h2
    obtain ⟨a3, rfl⟩ := inv_implicits0 h3
    obtain rfl := inv_rpar h4
    exact ⟨_, .exprStruct _⟩
  | exprAccess =>
    obtain ⟨v1, v2, v3, rfl, h1, h2, h3⟩ := map3 h
    obtain ⟨a1, rfl⟩ := inv_expr h1
    obtain rfl := inv_dot h2
    obtain ⟨a3, rfl⟩ := inv_name h3
    exact ⟨_, .exprAccess _ _⟩
  | exprCopy =>
    obtain ⟨v1, v2, v3, v4, v5, v6, rfl, h1, h2, h3, h4, h5, h6⟩ := map6 h
    obtain ⟨a1, rfl⟩ := inv_expr h1
    obtain rfl := inv_dot h2
    obtain rfl := inv_at h3
    obtain rfl := inv_lpar h4
    obtain ⟨a5, rfl⟩ := inv_implicits h5
    obtain rfl := inv_rpar h6
    exact ⟨_, .exprCopy _ _⟩
  | exprUnionType =>
    obtain ⟨v1, v2, v3, v4, rfl, h1, h2, h3, h4⟩ := map4 h
    obtain rfl := inv_plus h1
    obtain rfl := inv_lpar h2
    obtain ⟨a3, rfl⟩ := inv_types h3
    obtain rfl := inv_rpar h4
    exact ⟨_, .exprUnionType _⟩
  | exprPackage =>
    obtain ⟨v1, v2, v3, v4, rfl, h1, h2, h3, h4⟩ := map4 h
    obtain rfl := inv_percent h1
    obtain rfl := inv_lpar h2
    obtain ⟨a3, rfl⟩ := inv_modulePath h3
    obtain rfl := inv_rpar h4
    exact ⟨_, .exprPackage _⟩
  | exprPackageNone =>
    obtain ⟨v1, v2, v3, rfl, h1, h2, h3⟩ := map3 h
    obtain rfl := inv_percent h1
    obtain rfl := inv_lpar h2
    obtain rfl := inv_rpar h3
    exact ⟨_, .exprPackageNone⟩
  | exprUnion =>
    obtain ⟨v1, v2, v3, v4, v5, v6, rfl, h1, h2, h3, h4, h5, h6⟩ := map6 h
    obtain ⟨a1, rfl⟩ := inv_expr h1
    obtain rfl := inv_lpar h2
    obtain ⟨a3, rfl⟩ := inv_name h3
    obtain rfl := inv_colon h4
    obtain ⟨a5, rfl⟩ := inv_expr h5
    obtain rfl := inv_rpar h6
    exact ⟨_, .exprUnion _ _ _⟩
  | exprSelect =>
    obtain ⟨v1, v2, v3, v4, v5, v6, rfl, h1, h2, h3, h4, h5, h6⟩ := map6 h
    obtain ⟨a1, rfl⟩ := inv_expr h1
    obtain rfl := inv_dot h2
    obtain rfl := inv_quest h3
    obtain rfl := inv_lpar h4
    obtain ⟨a5, rfl⟩ := inv_tagged h5
    obtain rfl := inv_rpar h6
    exact ⟨_, .exprSelect _ _⟩
  | exprSelectDefault =>
    obtain ⟨v1, v2, v3, v4, v5, v6, v7, v8, v9, rfl, h1, h2, h3, h4, h5, h6, h7, h8, h9⟩ := map9 h
    obtain ⟨a1, rfl⟩ := inv_expr h1
    obtain rfl := inv_dot h2
    obtain rfl := inv_quest h3
    obtain rfl := inv_lpar h4
    obtain ⟨a5, rfl⟩ := inv_tagged h5
    obtain rfl := inv_comma h6
    obtain rfl := inv_colon h7
    obtain ⟨a8, rfl⟩ := inv_expr h8
    obtain rfl := inv_rpar h9
    exact ⟨_, .exprSelectDefault _ _ _⟩
  | exprPolyApply =>
    obtain ⟨v1, v2, v3, v4, rfl, h1, h2, h3, h4⟩ := map4 h
    obtain ⟨a1, rfl⟩ := inv_expr h1
    obtain rfl := inv_lt h2
    obtain ⟨a3, rfl⟩ := inv_exprs h3
    obtain rfl := inv_gt h4
    exact ⟨_, .exprPolyApply _ _⟩
  | exprAbstractAccess =>
    obtain ⟨v1, v2, v3, rfl, h1, h2, h3⟩ := map3 h
    obtain ⟨a1, rfl⟩ := inv_expr h1
    obtain rfl := inv_dot h2
    obtain rfl := inv_percent h3
    exact ⟨_, .exprAbstractAccess _⟩
  | exprCast =>
    obtain ⟨v1, v2, v3, v4, v5, v6, v7, v8, rfl, h1, h2, h3, h4, h5, h6, h7, h8⟩ := map8 h
    obtain ⟨a1, rfl⟩ := inv_expr h1
    obtain rfl := inv_dot h2
    obtain rfl := inv_lt h3
    obtain ⟨a4, rfl⟩ := inv_expr h4
    obtain rfl := inv_gt h5
    obtain rfl := inv_lpar h6
    obtain ⟨a7, rfl⟩ := inv_expr h7
    obtain rfl := inv_rpar h8
    exact ⟨_, .exprCast _ _ _⟩
  | exprList =>
    obtain ⟨v1, v2, v3, v4, rfl, h1, h2, h3, h4⟩ := map4 h
    obtain ⟨a1, rfl⟩ := inv_expr h1
    obtain rfl := inv_lbrack h2
    obtain ⟨a3, rfl⟩ := inv_exprs0 h3
    obtain rfl := inv_rbrack h4
    exact ⟨_, .exprList _ _⟩
  | exprLiteral =>
    obtain ⟨v1, v2, v3, rfl, h1, h2, h3⟩ := map3 h
    obtain ⟨a1, rfl⟩ := inv_expr h1
    obtain rfl := inv_bar h2
    obtain ⟨a3, rfl⟩ := inv_word h3
    exact ⟨_, .exprLiteral _ _⟩
  | exprBlock =>
    obtain ⟨v1, rfl, h1⟩ := map1 h
    obtain ⟨a1, rfl⟩ := inv_block h1
    exact ⟨_, .exprBlock _⟩
  | blockStmt =>
    obtain ⟨v1, v2, v3, rfl, h1, h2, h3⟩ := map3 h
    obtain rfl := inv_lbrace h1
    obtain ⟨a2, rfl⟩ := inv_stmt h2
    obtain rfl := inv_rbrace h3
    exact ⟨_, .blockStmt _⟩
  | blockFuncType =>
    obtain ⟨v1, v2, v3, v4, rfl, h1, h2, h3, h4⟩ := map4 h
    obtain rfl := inv_lpar h1
    obtain ⟨a2, rfl⟩ := inv_exprs h2
    obtain rfl := inv_rpar h3
    obtain ⟨a4, rfl⟩ := inv_block h4
    exact ⟨_, .blockFuncType _ _⟩
  | blockFunc =>
    obtain ⟨v1, v2, v3, v4, rfl, h1, h2, h3, h4⟩ := map4 h
    obtain rfl := inv_lpar h1
    obtain ⟨a2, rfl⟩ := inv_types h2
    obtain rfl := inv_rpar h3
    obtain ⟨a4, rfl⟩ := inv_block h4
    exact ⟨_, .blockFunc _ _⟩
  | blockPoly =>
    obtain ⟨v1, v2, v3, v4, rfl, h1, h2, h3, h4⟩ := map4 h
    obtain rfl := inv_lt h1
    obtain ⟨a2, rfl⟩ := inv_taggedKinds h2
    obtain rfl := inv_gt h3
    obtain ⟨a4, rfl⟩ := inv_block h4
    exact ⟨_, .blockPoly _ _⟩
  | stmtExpr =>
    obtain ⟨v1, v2, rfl, h1, h2⟩ := map2 h
    obtain ⟨a1, rfl⟩ := inv_expr h1
    obtain rfl := inv_semi h2
    exact ⟨_, .stmtExpr _⟩
  | stmtLet =>
    obtain ⟨v1, v2, v3, rfl, h1, h2, h3⟩ := map3 h
    obtain ⟨a1, rfl⟩ := inv_binds h1
    obtain rfl := inv_semi h2
    obtain ⟨a3, rfl⟩ := inv_stmt h3
    exact ⟨_, .stmtLet _ _⟩
  | stmtBind =>
    obtain ⟨v1, v2, v3, v4, v5, v6, rfl, h1, h2, h3, h4, h5, h6⟩ := map6 h
    obtain ⟨a1, rfl⟩ := inv_types h1
    obtain rfl := inv_lt h2
    obtain rfl := inv_minus h3
    obtain ⟨a4, rfl⟩ := inv_expr h4
    obtain rfl := inv_semi h5
    obtain ⟨a6, rfl⟩ := inv_stmt h6
    exact ⟨_, .stmtBind _ _ _⟩
  | stmtDefault =>
    obtain ⟨v1, v2, v3, rfl, h1, h2, h3⟩ := map3 h
    obtain ⟨a1, rfl⟩ := inv_expr h1
    obtain rfl := inv_semi h2
    obtain ⟨a3, rfl⟩ := inv_stmt h3
    exact ⟨_, .stmtDefault _ _⟩
  | exprsOne =>
    obtain ⟨v1, rfl, h1⟩ := map1 h
    obtain ⟨a1, rfl⟩ := inv_expr h1
    exact ⟨_, .exprsOne _⟩
  | exprsMore =>
    obtain ⟨v1, v2, v3, rfl, h1, h2, h3⟩ := map3 h
    obtain ⟨a1, rfl⟩ := inv_exprs h1
    obtain rfl := inv_comma h2
    obtain ⟨a3, rfl⟩ := inv_expr h3
    exact ⟨_, .exprsMore _ _⟩
  | exprsNone =>
    obtain rfl := List.map_eq_nil_iff.mp h
    exact ⟨_, .exprsNone⟩
  | exprsSome =>
    obtain ⟨v1, rfl, h1⟩ := map1 h
    obtain ⟨a1, rfl⟩ := inv_exprs h1
    exact ⟨_, .exprsSome _⟩
  | taggedType =>
    obtain ⟨v1, v2, rfl, h1, h2⟩ := map2 h
    obtain ⟨a1, rfl⟩ := inv_expr h1
    obtain ⟨a2, rfl⟩ := inv_name h2
    exact ⟨_, .taggedType _ _⟩
  | taggedTypesOne =>
    obtain ⟨v1, rfl, h1⟩ := map1 h
    obtain ⟨a1, rfl⟩ := inv_type h1
    exact ⟨_, .taggedTypesOne _⟩
  | taggedTypesMore =>
    obtain ⟨v1, v2, v3, rfl, h1, h2, h3⟩ := map3 h
    obtain ⟨a1, rfl⟩ := inv_types h1
    obtain rfl := inv_comma h2
    obtain ⟨a3, rfl⟩ := inv_type h3
    exact ⟨_, .taggedTypesMore _ _⟩
  | taggedTypesNone =>
    obtain rfl := List.map_eq_nil_iff.mp h
    exact ⟨_, .taggedTypesNone⟩
  | taggedTypesSome =>
    obtain ⟨v1, rfl, h1⟩ := map1 h
    obtain ⟨a1, rfl⟩ := inv_types h1
    exact ⟨_, .taggedTypesSome _⟩
  | implicitVar =>
    obtain ⟨v1, rfl, h1⟩ := map1 h
    obtain ⟨a1, rfl⟩ := inv_name h1
    exact ⟨_, .implicitVar _⟩
  | implicitColon =>
    obtain ⟨v1, v2, v3, rfl, h1, h2, h3⟩ := map3 h
    obtain ⟨a1, rfl⟩ := inv_name h1
    obtain rfl := inv_colon h2
    obtain ⟨a3, rfl⟩ := inv_expr h3
    exact ⟨_, .implicitColon _ _⟩
  | implicitsOne =>
    obtain ⟨v1, rfl, h1⟩ := map1 h
    obtain ⟨a1, rfl⟩ := inv_implicit h1
    exact ⟨_, .implicitsOne _⟩
  | implicitsMore =>
    obtain ⟨v1, v2, v3, rfl, h1, h2, h3⟩ := map3 h
    obtain ⟨a1, rfl⟩ := inv_implicits h1
    obtain rfl := inv_comma h2
    obtain ⟨a3, rfl⟩ := inv_implicit h3
    exact ⟨_, .implicitsMore _ _⟩
  | implicitsNone =>
    obtain rfl := List.map_eq_nil_iff.mp h
    exact ⟨_, .implicitsNone⟩
  | implicitsSome =>
    obtain ⟨v1, rfl, h1⟩ := map1 h
    obtain ⟨a1, rfl⟩ := inv_implicits h1
    exact ⟨_, .implicitsSome _⟩
  | taggedExpr =>
    obtain ⟨v1, v2, v3, rfl, h1, h2, h3⟩ := map3 h
    obtain ⟨a1, rfl⟩ := inv_name h1
    obtain rfl := inv_colon h2
    obtain ⟨a3, rfl⟩ := inv_expr h3
    exact ⟨_, .taggedExpr _ _⟩
  | taggedExprsOne =>
    obtain ⟨v1, rfl, h1⟩ := map1 h
    obtain ⟨a1, rfl⟩ := inv_tag h1
    exact ⟨_, .taggedExprsOne _⟩
  | taggedExprsMore =>
    obtain ⟨v1, v2, v3, rfl, h1, h2, h3⟩ := map3 h
    obtain ⟨a1, rfl⟩ := inv_tagged h1
    obtain rfl := inv_comma h2
    obtain ⟨a3, rfl⟩ := inv_tag h3
    exact ⟨_, .taggedExprsMore _ _⟩
  | bindType =>
    obtain ⟨v1, v2, v3, v4, rfl, h1, h2, h3, h4⟩ := map4 h
    obtain ⟨a1, rfl⟩ := inv_expr h1
    obtain ⟨a2, rfl⟩ := inv_name h2
    obtain rfl := inv_equals h3
    obtain ⟨a4, rfl⟩ := inv_expr h4
    exact ⟨_, .bindType _ _ _⟩
  | bindKind =>
    obtain ⟨v1, v2, v3, v4, rfl, h1, h2, h3, h4⟩ := map4 h
    obtain ⟨a1, rfl⟩ := inv_kind h1
    obtain ⟨a2, rfl⟩ := inv_name h2
    obtain rfl := inv_equals h3
    obtain ⟨a4, rfl⟩ := inv_expr h4
    exact ⟨_, .bindKind _ _ _⟩
  | bindMoreType =>
    obtain ⟨v1, v2, v3, v4, v5, v6, rfl, h1, h2, h3, h4, h5, h6⟩ := map6 h
    obtain ⟨a1, rfl⟩ := inv_binds h1
    obtain rfl := inv_comma h2
    obtain ⟨a3, rfl⟩ := inv_expr h3
    obtain ⟨a4, rfl⟩ := inv_name h4
    obtain rfl := inv_equals h5
    obtain ⟨a6, rfl⟩ := inv_expr h6
    exact ⟨_, .bindMoreType _ _ _ _⟩
  | bindMoreKind =>
    obtain ⟨v1, v2, v3, v4, v5, v6, rfl, h1, h2, h3, h4, h5, h6⟩ := map6 h
    obtain ⟨a1, rfl⟩ := inv_binds h1
    obtain rfl := inv_comma h2
    obtain ⟨a3, rfl⟩ := inv_kind h3
    obtain ⟨a4, rfl⟩ := inv_name h4
    obtain rfl := inv_equals h5
    obtain ⟨a6, rfl⟩ := inv_expr h6
    exact ⟨_, .bindMoreKind _ _ _ _⟩

theorem App.syms {r vs v} (h : App r vs v) : vs.map Node.sym = r.rhs := by
  cases h <;> rfl

theorem App.toks {r vs v} (h : App r vs v) : v.toks = (vs.map Node.toks).flatten := by
  cases h <;>
    simp [Node.toks, SName.toks, SPath.inner, SPath.toks, SNKind.toks, STKind.toks, STKinds.toks, SKind.toks, STaggedKinds.toks, SExpr.toks,
      SBlock.toks, SStmt.toks, SExprs.toks, SExprs0.toks, SType.toks, STypes.toks, STypes0.toks, SImplicit.toks, SImplicits.toks,
      SImplicits0.toks, STag.toks, STagged.toks, SBinds.toks]

theorem App.height {r vs v} (h : App r vs v) : v.height = depth (vs.map Node.height) := by
  cases h <;>
    simp [Node.height, SName.height, SPath.innerHeight, SPath.height, SNKind.height, STKind.height, STKinds.height, SKind.height,
      STaggedKinds.height, SExpr.height, SBlock.height, SStmt.height, SExprs.height, SExprs0.height, SType.height, STypes.height,
      STypes0.height, SImplicit.height, SImplicits.height, SImplicits0.height, STag.height, STagged.height, SBinds.height] <;> rfl

theorem App.size {r vs v} (h : App r vs v) : ∀ x ∈ vs, x.size < v.size := by
  cases h <;> simp [Node.size] <;> omega

/-- Every node that is no token is built by a production. -/
theorem Node.app : (v : Node) → (∃ t, v = .tok t) ∨ ∃ r vs, App r vs v
  | .tok t => .inl ⟨t, rfl⟩
  | .program _ => .inr ⟨_, _, .startProgram _⟩
  | .start _ => .inr ⟨_, _, .startPath _⟩
  | .name (.normal _) => .inr ⟨_, _, .nameWord _⟩
  | .name (.type _) => .inr ⟨_, _, .nameType _⟩
  | .path (.word _) => .inr ⟨_, _, .pathWord _⟩
  | .path (.slash _ _) => .inr ⟨_, _, .pathSlash _ _⟩
  | .modulePath _ => .inr ⟨_, _, .modulePath _⟩
  | .nkind .basic => .inr ⟨_, _, .nkindBasic⟩
  | .nkind (.poly _ _) => .inr ⟨_, _, .nkindPoly _ _⟩
  | .tkind .basic => .inr ⟨_, _, .tkindBasic⟩
  | .tkind (.poly _ _) => .inr ⟨_, _, .tkindPoly _ _⟩
  | .kind (.n _) => .inr ⟨_, _, .kindN _⟩
  | .kind (.t _) => .inr ⟨_, _, .kindT _⟩
  | .tkinds (.one _) => .inr ⟨_, _, .tkindsOne _⟩
  | .tkinds (.more _ _) => .inr ⟨_, _, .tkindsMore _ _⟩
  | .taggedKinds (.one _ _) => .inr ⟨_, _, .taggedKindsOne _ _⟩
  | .taggedKinds (.more _ _ _) => .inr ⟨_, _, .taggedKindsMore _ _ _⟩
  | .expr (.typeOf _) => .inr ⟨_, _, .exprTypeof _⟩
  | .expr (.var _) => .inr ⟨_, _, .exprVar _⟩
  | .expr (.modulePath _) => .inr ⟨_, _, .exprModule _⟩
  | .expr (.structType _) => .inr ⟨_, _, .exprStructType _⟩
  | .expr (.apply _ _) => .inr ⟨_, _, .exprApply _ _⟩
  | .expr (.struct _) => .inr ⟨_, _, .exprStruct _⟩
  | .expr (.access _ _) => .inr ⟨_, _, .exprAccess _ _⟩
  | .expr (.copy _ _) => .inr ⟨_, _, .exprCopy _ _⟩
  | .expr (.unionType _) => .inr ⟨_, _, .exprUnionType _⟩
  | .expr (.package _) => .inr ⟨_, _, .exprPackage _⟩
  | .expr .packageNone => .inr ⟨_, _, .exprPackageNone⟩
  | .expr (.union _ _ _) => .inr ⟨_, _, .exprUnion _ _ _⟩
  | .expr (.select _ _) => .inr ⟨_, _, .exprSelect _ _⟩
  | .expr (.selectDefault _ _ _) => .inr ⟨_, _, .exprSelectDefault _ _ _⟩
  | .expr (.polyApply _ _) => .inr ⟨_, _, .exprPolyApply _ _⟩
  | .expr (.abstractAccess _) => .inr ⟨_, _, .exprAbstractAccess _⟩
  | .expr (.cast _ _ _) => .inr ⟨_, _, .exprCast _ _ _⟩
  | .expr (.list _ _) => .inr ⟨_, _, .exprList _ _⟩
  | .expr (.literal _ _) => .inr ⟨_, _, .exprLiteral _ _⟩
  | .expr (.block _) => .inr ⟨_, _, .exprBlock _⟩
  | .block (.braces _) => .inr ⟨_, _, .blockStmt _⟩
  | .block (.funcType _ _) => .inr ⟨_, _, .blockFuncType _ _⟩
  | .block (.func _ _) => .inr ⟨_, _, .blockFunc _ _⟩
  | .block (.poly _ _) => .inr ⟨_, _, .blockPoly _ _⟩
  | .stmt (.expr _) => .inr ⟨_, _, .stmtExpr _⟩
  | .stmt (.letE _ _) => .inr ⟨_, _, .stmtLet _ _⟩
  | .stmt (.bind _ _ _) => .inr ⟨_, _, .stmtBind _ _ _⟩
  | .stmt (.default _ _) => .inr ⟨_, _, .stmtDefault _ _⟩
  | .exprs (.one _) => .inr ⟨_, _, .exprsOne _⟩
  | .exprs (.more _ _) => .inr ⟨_, _, .exprsMore _ _⟩
  | .exprs0 .none => .inr ⟨_, _, .exprsNone⟩
  | .exprs0 (.some _) => .inr ⟨_, _, .exprsSome _⟩
  | .type (.mk _ _) => .inr ⟨_, _, .taggedType _ _⟩
  | .types (.one _) => .inr ⟨_, _, .taggedTypesOne _⟩
  | .types (.more _ _) => .inr ⟨_, _, .taggedTypesMore _ _⟩
  | .types0 .none => .inr ⟨_, _, .taggedTypesNone⟩
  | .types0 (.some _) => .inr ⟨_, _, .taggedTypesSome _⟩
  | .implicit (.var _) => .inr ⟨_, _, .implicitVar _⟩
  | .implicit (.colon _ _) => .inr ⟨_, _, .implicitColon _ _⟩
  | .implicits (.one _) => .inr ⟨_, _, .implicitsOne _⟩
  | .implicits (.more _ _) => .inr ⟨_, _, .implicitsMore _ _⟩
  | .implicits0 .none => .inr ⟨_, _, .implicitsNone⟩
  | .implicits0 (.some _) => .inr ⟨_, _, .implicitsSome _⟩
  | .tag (.mk _ _) => .inr ⟨_, _, .taggedExpr _ _⟩
  | .tagged (.one _) => .inr ⟨_, _, .taggedExprsOne _⟩
  | .tagged (.more _ _) => .inr ⟨_, _, .taggedExprsMore _ _⟩
  | .binds (.type _ _ _) => .inr ⟨_, _, .bindType _ _ _⟩
  | .binds (.kind _ _ _) => .inr ⟨_, _, .bindKind _ _ _⟩
  | .binds (.moreType _ _ _ _) => .inr ⟨_, _, .bindMoreType _ _ _ _⟩
  | .binds (.moreKind _ _ _ _) => .inr ⟨_, _, .bindMoreKind _ _ _ _⟩

end Verif.Parse
