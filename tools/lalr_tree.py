import re
T=open('/verif/lean/Verif/Parse/Tables.lean').read()
blk=T[T.index('def Rule.rhs'):]
rhs={}
for m in re.finditer(r'^  \| \.(\w+) => \[(.*)\]',blk,re.M):
    if m.group(1) in rhs: break
    rhs[m.group(1)]=[x.strip() for x in m.group(2).split(',') if x.strip()]
del rhs['accept']
chars={'at':'@','slash':'/','percent':'%','lt':'<','gt':'>','comma':',','star':'*','lpar':'(','rpar':')','dot':'.','plus':'+','colon':':','quest':'?','lbrack':'[','rbrack':']','bar':'|','lbrace':'{','rbrace':'}','semi':';','minus':'-','equals':'='}
nt={'n_name':('name','x'),'n_path':('path','p'),'n_module_path':('modulePath','p'),'n_nkind':('nkind','k'),'n_tkind':('tkind','k'),'n_kind':('kind','k'),
'n_tkind_p':('tkinds','ks'),'n_tagged_kind_p':('taggedKinds','ks'),'n_expr':('expr','e'),'n_block':('block','b'),'n_stmt':('stmt','s'),'n_expr_p':('exprs','es'),
'n_expr_s':('exprs0','es'),'n_tagged_type':('type','t'),'n_tagged_type_p':('types','ts'),'n_tagged_type_s':('types0','ts'),'n_implicit_tagged_expr':('implicit','i'),
'n_implicit_tagged_expr_p':('implicits','is'),'n_implicit_tagged_expr_s':('implicits0','is'),'n_tagged_expr':('tag','t'),'n_tagged_expr_p':('tagged','ts'),'n_let_binding_p':('binds','bs')}
# result constructor per rule: '$n' order as args given
res={
'startProgram':'.program {0}','startPath':'.start {0}',
'nameWord':'.name (.normal {0})','nameType':'.name (.type {0})','pathWord':'.path (.word {0})','pathSlash':'.path (.slash {0} {1})',
'modulePath':'.modulePath {0}','nkindBasic':'.nkind .basic','nkindPoly':'.nkind (.poly {0} {1})','tkindBasic':'.tkind .basic','tkindPoly':'.tkind (.poly {0} {1})',
'kindN':'.kind (.n {0})','kindT':'.kind (.t {0})','tkindsOne':'.tkinds (.one {0})','tkindsMore':'.tkinds (.more {0} {1})',
'taggedKindsOne':'.taggedKinds (.one {0} {1})','taggedKindsMore':'.taggedKinds (.more {0} {1} {2})',
'exprTypeof':'.expr (.typeOf {0})','exprVar':'.expr (.var {0})','exprModule':'.expr (.modulePath {0})','exprStructType':'.expr (.structType {0})',
'exprApply':'.expr (.apply {0} {1})','exprStruct':'.expr (.struct {0})','exprAccess':'.expr (.access {0} {1})','exprCopy':'.expr (.copy {0} {1})',
'exprUnionType':'.expr (.unionType {0})','exprPackage':'.expr (.package {0})','exprPackageNone':'.expr .packageNone','exprUnion':'.expr (.union {0} {1} {2})',
'exprSelect':'.expr (.select {0} {1})','exprSelectDefault':'.expr (.selectDefault {0} {1} {2})','exprPolyApply':'.expr (.polyApply {0} {1})',
'exprAbstractAccess':'.expr (.abstractAccess {0})','exprCast':'.expr (.cast {0} {1} {2})','exprList':'.expr (.list {0} {1})','exprLiteral':'.expr (.literal {0} {1})',
'exprBlock':'.expr (.block {0})','blockStmt':'.block (.braces {0})','blockFuncType':'.block (.funcType {0} {1})','blockFunc':'.block (.func {0} {1})','blockPoly':'.block (.poly {0} {1})',
'stmtExpr':'.stmt (.expr {0})','stmtLet':'.stmt (.letE {0} {1})','stmtBind':'.stmt (.bind {0} {1} {2})','stmtDefault':'.stmt (.default {0} {1})',
'exprsOne':'.exprs (.one {0})','exprsMore':'.exprs (.more {0} {1})','exprsNone':'.exprs0 .none','exprsSome':'.exprs0 (.some {0})','taggedType':'.type (.mk {0} {1})',
'taggedTypesOne':'.types (.one {0})','taggedTypesMore':'.types (.more {0} {1})','taggedTypesNone':'.types0 .none','taggedTypesSome':'.types0 (.some {0})',
'implicitVar':'.implicit (.var {0})','implicitColon':'.implicit (.colon {0} {1})','implicitsOne':'.implicits (.one {0})','implicitsMore':'.implicits (.more {0} {1})',
'implicitsNone':'.implicits0 .none','implicitsSome':'.implicits0 (.some {0})','taggedExpr':'.tag (.mk {0} {1})','taggedExprsOne':'.tagged (.one {0})','taggedExprsMore':'.tagged (.more {0} {1})',
'bindType':'.binds (.type {0} {1} {2})','bindKind':'.binds (.kind {0} {1} {2})','bindMoreType':'.binds (.moreType {0} {1} {2} {3})','bindMoreKind':'.binds (.moreKind {0} {1} {2} {3})'}
assert set(res)==set(rhs),set(res)^set(rhs)
types=[('name','SName'),('path','SPath'),('modulePath','SPath'),('nkind','SNKind'),('tkind','STKind'),('kind','SKind'),('tkinds','STKinds'),('taggedKinds','STaggedKinds'),('expr','SExpr'),('block','SBlock'),('stmt','SStmt'),('exprs','SExprs'),('exprs0','SExprs0'),('type','SType'),('types','STypes'),('types0','STypes0'),('implicit','SImplicit'),('implicits','SImplicits'),('implicits0','SImplicits0'),('tag','STag'),('tagged','STagged'),('binds','SBinds')]
sym={v[0]:k for k,v in nt.items()}
o=[]
w=o.append
w('''import Verif.Parse.Syntax
/-
Derivations of the grammar are the programs of Parse/Syntax.lean.
-/
namespace Verif.Parse
open Text (Token Str ch)

/-- What a symbol of the grammar can stand for. -/
inductive Node where
  | tok (t : Tok)''')
for c,t in types: w(f'  | {c} (x : {t})')
w('''  /-- `start`, for a program -/
  | program (s : SStmt)
  /-- `start`, for a module path -/
  | start (p : SPath)
''')
w('namespace Node\n')
w('def sym : Node → Nat\n  | .tok t => t.kind')
for c,t in types: w(f'  | .{c} _ => {sym[c]}')
w('  | .program _ => n_start\n  | .start _ => n_start\n')
w('def toks : Node → List Tok\n  | .tok t => [t]')
for c,t in types: w(f'  | .{c} x => x.{"inner" if c=="path" else "toks"}.map .lex')
w('  | .program s => .program :: s.toks.map .lex\n  | .start p => .modulePath :: p.toks.map .lex\n')
w('def height : Node → Nat\n  | .tok _ => 1')
for c,t in types: w(f'  | .{c} x => x.{"innerHeight" if c=="path" else "height"}')
w('  | .program s => depth [1, s.height]\n  | .start p => depth [1, p.height]\n')
w('noncomputable def size : Node → Nat\n  | .tok _ => 0')
for c,t in types: w(f'  | .{c} x => 4 * sizeOf x'+(' + 1' if c=='modulePath' else ''))
w('  | .program s => 4 * sizeOf s + 1\n  | .start p => 4 * sizeOf p + 2\n')
w('end Node\n')
w('/-- A punctuation character. -/\nabbrev T (c : Char) : Node := .tok (.lex (P c))\n/-- A word. -/\nabbrev W (w : Str) : Node := .tok (.lex (.word w))\n')
w('/-- The productions. -/\ninductive App : Rule → List Node → Node → Prop where')
def pats(r):
    ps=[];args=[]
    for i,x in enumerate(rhs[r],1):
        if x=='t_word': args.append((f'w{i}','Str')); ps.append(f'W w{i}')
        elif x=='t_parseProgram': ps.append('.tok .program')
        elif x=='t_parseModulePath': ps.append('.tok .modulePath')
        elif x.startswith('t_'): ps.append(f"T '{chars[x[2:]]}'")
        else:
            c,v=nt[x]; args.append((f'{v}{i}',dict(types)[c])); ps.append(f'.{c} {v}{i}')
    return ps,args
for r in rhs:
    ps,args=pats(r)
    a=' '.join(f'({n} : {t})' for n,t in args)
    w(f'  | {r} {a+" " if a else ""}: App .{r} [{", ".join(ps)}] ({res[r].format(*[n for n,_ in args])})')
w('')
w('/-- What a production builds. -/\ndef build (r : Rule) (vs : List Node) : Option Node :=\n  match r with\n  | .accept => none')
for r in rhs:
    ps,args=pats(r)
    ps2=[('.tok (.lex (.word '+p.split()[1]+'))') if p.startswith('W ') else ('_' if p.startswith('T ') or p.startswith('.tok') else p) for p in ps]
    e=res[r].format(*[n for n,_ in args])
    w(f'  | .{r} => match vs with | [{", ".join(ps2)}] => some ({e}) | _ => none')
w('''
theorem App.build {r vs v} (h : App r vs v) : build r vs = some v := by cases h <;> rfl

theorem App.sym {r vs v} (h : App r vs v) : v.sym = r.lhs := by cases h <;> rfl

/-! ### Which node a symbol is -/

theorem kind_punct {t : Tok} {k} (h : t.kind = k) (hk : 5 ≤ k) : ∃ b, t = .lex (.punct b) ∧ (b, k) ∈ charKinds := by
  match t with
  | .program => subst h; exact absurd hk (by decide)
  | .modulePath => subst h; exact absurd hk (by decide)
  | .lex .end_ => subst h; exact absurd hk (by decide)
  | .lex (.word _) => subst h; exact absurd hk (show ¬ 5 ≤ t_word by decide)
  | .lex (.punct b) =>
    refine ⟨b, rfl, ?_⟩
    simp only [Tok.kind] at h
    cases hl : charKinds.lookup b with
    | none => rw [hl] at h; subst h; exact absurd hk (by decide)
    | some k' =>
      rw [hl] at h
      simp only [Option.getD_some] at h
      subst h
      have : ∀ l : List (Text.Byte × Nat), l.lookup b = some k' → (b, k') ∈ l := by
        intro l
        induction l with
        | nil => intro h; cases h
        | cons x l ih =>
          intro h
          obtain ⟨y, c⟩ := x
          simp only [List.lookup] at h
          split at h
          · rename_i he; cases h; rw [beq_iff_eq] at he; subst he; exact .head _
          · exact .tail _ (ih h)
      exact this _ hl

/-- The character of a terminal symbol. -/
def charOf (k : Nat) : Text.Byte := ((charKinds.map Prod.swap).lookup k).getD 0

theorem charOf_ok : ∀ x ∈ charKinds, charOf x.2 = x.1 := by decide +kernel

theorem node_punct {v : Node} {k} (h : v.sym = k) (hk : 5 ≤ k) (hk' : k < numTerminals) : v = .tok (.lex (.punct (charOf k))) := by
  cases v with
  | tok t =>
    obtain ⟨b, rfl, hm⟩ := kind_punct h hk
    rw [charOf_ok _ hm]
  | _ => simp only [Node.sym] at h; subst h; exact absurd hk' (by decide)
''')
for n,c in chars.items():
    w(f"theorem inv_{n} {{v : Node}} (h : v.sym = t_{n}) : v = T '{c}' := node_punct h (by decide) (by decide)")
w('''
theorem lookup_ge {b k} (h : charKinds.lookup b = some k) : 5 ≤ k := by
  have : ∀ l : List (Text.Byte × Nat), (∀ x ∈ l, 5 ≤ x.2) → l.lookup b = some k → 5 ≤ k := by
    intro l
    induction l with
    | nil => intro _ h; cases h
    | cons x l ih =>
      intro hl h
      obtain ⟨y, c⟩ := x
      simp only [List.lookup] at h
      split at h
      · cases h; exact hl _ (.head _)
      · exact ih (fun x hx => hl x (.tail _ hx)) h
  exact this charKinds (by decide) h

theorem inv_word {v : Node} (h : v.sym = t_word) : ∃ w, v = W w := by
  cases v with
  | tok t =>
    match t with
    | .lex (.word w) => exact ⟨w, rfl⟩
    | .program => cases h
    | .modulePath => cases h
    | .lex .end_ => cases h
    | .lex (.punct b) =>
      simp only [Node.sym, Tok.kind] at h
      cases hl : charKinds.lookup b with
      | none => rw [hl] at h; cases h
      | some k =>
        rw [hl] at h
        have := lookup_ge hl
        simp only [Option.getD_some] at h
        subst h
        exact absurd this (by decide)
  | _ => simp only [Node.sym] at h; exact absurd h (by decide)
''')
for n,c in (('parseProgram','program'),('parseModulePath','modulePath')):
    w(f'''theorem inv_{n} {{v : Node}} (h : v.sym = t_{n}) : v = .tok .{c} := by
  cases v with
  | tok t =>
    match t with
    | .{c} => rfl
    | .{'modulePath' if c=='program' else 'program'} => cases h
    | .lex .end_ => cases h
    | .lex (.word _) => cases h
    | .lex (.punct b) =>
      simp only [Node.sym, Tok.kind] at h
      cases hl : charKinds.lookup b with
      | none => rw [hl] at h; cases h
      | some k =>
        rw [hl] at h
        have := lookup_ge hl
        simp only [Option.getD_some] at h
        subst h
        exact absurd this (by decide)
  | _ => simp only [Node.sym] at h; exact absurd h (by decide)
''')
w('''theorem tok_nonterminal {t : Tok} {k} (h : (Node.tok t).sym = k) (hk : numTerminals ≤ k) : False := by
  have := t.kind_lt
  simp only [Node.sym] at h
  omega
''')
for c,t in types:
    w(f'''theorem inv_{c} {{v : Node}} (h : v.sym = {sym[c]}) : ∃ x, v = .{c} x := by
  cases v with
  | {c} x => exact ⟨x, rfl⟩
  | tok t => exact (tok_nonterminal h (by decide)).elim
  | _ => simp only [Node.sym] at h; exact absurd h (by decide)
''')
for n in range(1,10):
    vs=' '.join(f'v{i}' for i in range(1,n+1))
    w(f'''theorem map{n} {{vs : List Node}} {{{' '.join(f'x{i}' for i in range(1,n+1))}}} (h : vs.map Node.sym = [{', '.join(f'x{i}' for i in range(1,n+1))}]) :
    ∃ {vs}, vs = [{', '.join(f'v{i}' for i in range(1,n+1))}] ∧ {' ∧ '.join(f'v{i}.sym = x{i}' for i in range(1,n+1))} := by
  match vs, h with
  | [{', '.join(f'v{i}' for i in range(1,n+1))}], h => simp at h; exact ⟨{', '.join(f'v{i}' for i in range(1,n+1))}, rfl, h⟩
''')
w('/-- Symbols as on the right hand side of a production. -/\ntheorem app_of_syms {r vs} (hr : r ≠ .accept) (h : vs.map Node.sym = r.rhs) : ∃ v, App r vs v := by\n  cases r with\n  | accept => exact absurd rfl hr')
inv=lambda x: 'inv_'+(x[2:] if x.startswith('t_') else nt[x][0])
for r in rhs:
    n=len(rhs[r])
    w(f'  | {r} =>')
    if n==0:
        w(f'    obtain rfl := List.map_eq_nil_iff.mp h'); w('    exact ⟨_, .'+r+'⟩'); continue
    w(f'    obtain ⟨{", ".join(f"v{i}" for i in range(1,n+1))}, rfl, {", ".join(f"h{i}" for i in range(1,n+1))}⟩ := map{n} h')
    for i,x in enumerate(rhs[r],1):
        if x=='t_word' or x.startswith('n_'): w(f'    obtain ⟨a{i}, rfl⟩ := {inv(x)} h{i}')
        else: w(f'    obtain rfl := {inv(x)} h{i}')
    ps,args=pats(r)
    w(f'    exact ⟨_, .{r}{"".join(" _" for _ in args)}⟩')
w('''
theorem App.syms {r vs v} (h : App r vs v) : vs.map Node.sym = r.rhs := by
  cases h <;> rfl

theorem App.toks {r vs v} (h : App r vs v) : v.toks = (vs.map Node.toks).flatten := by
  cases h <;>
    simp [Node.toks, SName.toks, SPath.inner, SPath.toks, SNKind.toks, STKind.toks, STKinds.toks, SKind.toks, STaggedKinds.toks, SExpr.toks,
      SBlock.toks, SStmt.toks, SExprs.toks, SExprs0.toks, SType.toks, STypes.toks, STypes0.toks, SImplicit.toks, SImplicits.toks,
      SImplicits0.toks, STag.toks, STagged.toks, SBinds.toks]

theorem App.height {r vs v} (h : App r vs v) : v.height = depth (vs.map Node.height) := by
  cases h <;>
    simp [Node.height, SName.height, SPath.innerHeight, SPath.height, SNKind.height, STKind.height, STKinds.height, SKind.height,
      STaggedKinds.height, SExpr.height, SBlock.height, SStmt.height, SExprs.height, SExprs0.height, SType.height, STypes.height,
      STypes0.height, SImplicit.height, SImplicits.height, SImplicits0.height, STag.height, STagged.height, SBinds.height] <;> rfl

theorem App.size {r vs v} (h : App r vs v) : ∀ x ∈ vs, x.size < v.size := by
  cases h <;> simp [Node.size] <;> omega

/-- Every node that is no token is built by a production. -/
theorem Node.app : (v : Node) → (∃ t, v = .tok t) ∨ ∃ r vs, App r vs v
  | .tok t => .inl ⟨t, rfl⟩''')
# one clause per rule
seen=set()
for r in rhs:
    ps,args=pats(r)
    e=res[r].format(*['_' for n,_ in args])
    w(f'  | {e} => .inr ⟨_, _, .{r}{"".join(" _" for _ in args)}⟩')
w('\nend Verif.Parse')
open('/verif/lean/Verif/Parse/Tree.lean','w').write('\n'.join(o)+'\n')
