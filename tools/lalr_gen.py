import sys
sys.argv=['x']
from lalr import *
names='''accept startProgram startPath nameWord nameType pathWord pathSlash modulePath nkindBasic nkindPoly tkindBasic tkindPoly
kindN kindT tkindsOne tkindsMore taggedKindsOne taggedKindsMore exprTypeof exprVar exprModule exprStructType exprApply exprStruct exprAccess
exprCopy exprUnionType exprPackage exprPackageNone exprUnion exprSelect exprSelectDefault exprPolyApply exprAbstractAccess exprCast exprList
exprLiteral exprBlock blockStmt blockFuncType blockFunc blockPoly stmtExpr stmtLet stmtBind stmtDefault exprsOne exprsMore exprsNone exprsSome
taggedType taggedTypesOne taggedTypesMore taggedTypesNone taggedTypesSome implicitVar implicitColon implicitsOne implicitsMore implicitsNone
implicitsSome taggedExpr taggedExprsOne taggedExprsMore bindType bindKind bindMoreType bindMoreKind'''.split()
assert len(names)==len(prods)
tn={'END':'eof','UNDEF':'undef','PARSE_PROGRAM':'parseProgram','PARSE_MODULE_PATH':'parseModulePath','WORD':'word',"'@'":'at',"'/'":'slash',"'%'":'percent',"'<'":'lt',"'>'":'gt',"','":'comma',"'*'":'star',"'('":'lpar',"')'":'rpar',"'.'":'dot',"'+'":'plus',"':'":'colon',"'?'":'quest',"'['":'lbrack',"']'":'rbrack',"'|'":'bar',"'{'":'lbrace',"'}'":'rbrace',"';'":'semi',"'-'":'minus',"'='":'equals'}
nn={n:n.replace('$','') for n in nts}
def camel(s):
    p=s.split('_');return p[0]+''.join(x.capitalize() for x in p[1:])
for n in nts: nn[n]='n'+camel(n.replace('$','')).capitalize() if False else 'n_'+n.replace('$','')
sym={}
num={}
for i,t in enumerate(terms):sym[t]='t_'+tn[t];num[t]=i
for i,n in enumerate(nts):sym[n]='n_'+n.replace('$','');num[n]=len(terms)+i
ends={}
import re
lines=src.split('\n')
o=[]
o.append('''/-
The grammar of /repo/lib/parse.y and the LALR(1) tables bison makes of it.

The symbols and the productions are those of parse.y, numbered as bison numbers productions.  The
tables are not in /repo: they are built from parse.y by bison.  These here were computed from
parse.y by tools/lalr.py with the construction bison documents: the LALR(1) automaton (which has no
conflicts), and in every state with reductions the most frequent one as the default, which is used for every
token that has no other action in the state.  Whether the tables are right does not have to be taken
on trust: Parse/Check.lean proves what is needed about them.
-/
namespace Verif.Parse

/-! ### Symbols: parse.y:86-104 -/
''')
for t in terms:
    o.append('abbrev %s : Nat := %d'%(sym[t],num[t]) + ('   -- a character that is no token of the grammar' if t=='UNDEF' else ''))
for n in nts:o.append('abbrev %s : Nat := %d'%(sym[n],num[n]))
o.append('''
/-- The number of terminal symbols; the others are nonterminal. -/
abbrev numTerminals : Nat := %d
/-- The number of symbols. -/
abbrev numSyms : Nat := %d

/-- The productions, parse.y:192-700. -/
inductive Rule where'''%(len(terms),len(terms)+len(nts)))
for (l,r,ln),nm in zip(prods,names):
    o.append('  /-- %s`%s: %s` -/'%('' if ln==0 else 'parse.y:%d '%ln,l,' '.join(r) if r else '%empty'))
    o.append('  | %s'%nm)
o.append('  deriving DecidableEq\n')
o.append('/-- Left hand side. -/\ndef Rule.lhs : Rule → Nat')
for (l,r,ln),nm in zip(prods,names):o.append('  | .%s => %s'%(nm,sym[l]))
o.append('\n/-- Right hand side. -/\ndef Rule.rhs : Rule → List Nat')
for (l,r,ln),nm in zip(prods,names):o.append('  | .%s => [%s]'%(nm,', '.join(sym[x] for x in r)))
o.append('\n/-- All productions. -/\ndef rules : List Rule :=\n  ['+',\n   '.join(', '.join('.'+x for x in names[i:i+8]) for i in range(0,len(names),8))+']')
o.append('''
/-- A map from numbers, as a binary tree: the lowest bit of the number chooses the side. -/
inductive Bin (α : Type) where
  | nil
  | leaf (a : α)
  | node (l r : Bin α)

def Bin.get {α : Type} : Bin α → Nat → Option α
  | .nil, _ => none
  | .leaf a, n => if n = 0 then some a else none
  | .node l r, n => if n % 2 = 0 then l.get (n / 2) else r.get (n / 2)

/-- A state of the automaton: terminals that are shifted and the next state, reductions with their
lookahead, the default reduction, and the state after a nonterminal. -/
structure Row where
  shift : List (Nat × Nat)
  reduce : List (Nat × Rule)
  default : Option Rule
  goto : List (Nat × Nat)
''')
# real LALR lookaheads for default reductions
import importlib
def lalr_plain():
    it=[{x:set() for x in closure(K)} for K in states]
    ch=True
    while ch:
        ch=False
        for s in range(len(states)):
            for (p,d),L in list(it[s].items()):
                r=prods[p][1]
                if d<len(r):
                    M=it[trans[s][r[d]]][(p,d+1)];a=len(M);M|=L;ch|=len(M)!=a
                    if r[d] in byl:
                        F=firstseq(r[d+1:],L)
                        for n in byl[r[d]]:
                            M=it[s][(n,0)];a=len(M);M|=F;ch|=len(M)!=a
    return it
plain=lalr_plain()
rows=[]
fin=trans[trans[0]['start']]['END']
for s in range(len(states)):
    sh=[(num[t],u) for t,u in trans[s].items() if t in terms and t!='END']
    go=[(num[t],u) for t,u in trans[s].items() if t not in terms]
    red=collections.OrderedDict((p,L) for (p,d),L in sorted(plain[s].items()) if d==len(prods[p][1]) and p!=0)
    dflt=None
    if red:
        dflt=max(red,key=lambda p:(len(red[p]),-p))
    rd=[(num[t],p) for p,L in red.items() if p!=dflt for t in sorted(L,key=lambda x:num[x])]
    assert not(set(t for t,_ in sh)&set(t for t,_ in rd))
    rows.append((sorted(sh),rd,dflt,sorted(go)))
print('states with several reductions', sum(1 for s in range(len(states)) if len([1 for (p,d) in plain[s] if d==len(prods[p][1])])>1))
def rowtxt(r):
    sh,rd,df,go=r
    return '⟨[%s], [%s], %s, [%s]⟩'%(', '.join('(%d, %d)'%x for x in sh),', '.join('(%d, .%s)'%(t,names[p]) for t,p in rd),'none' if df is None else 'some .'+names[df],', '.join('(%d, %d)'%x for x in go))
for s,r in enumerate(rows):
    o.append('private def r%d : Row := %s'%(s,rowtxt(r)))
def bintree(lo,step):
    idxs=list(range(lo,len(rows),step))
    if not idxs:return '.nil'
    if len(idxs)==1:return '(.leaf r%d)'%lo
    return '(.node %s %s)'%(bintree(lo,step*2),bintree(lo+step,step*2))
# split into subdefs by low 4 bits
def emit(lo,step,name):
    o.append('private def %s : Bin Row := %s'%(name,bintree(lo,step)))
for k in range(8): emit(k,8,'b%d'%k)
o.append('''
/-- The states, by number. -/
def table : Bin Row :=
  .node (.node (.node b0 b4) (.node b2 b6)) (.node (.node b1 b5) (.node b3 b7))

/-- The number of states. -/
abbrev numStates : Nat := %d

/-- The state in which END is accepted: after `start`, in the production `$accept: start END`. -/
def acceptState : Nat := %d

/-- What to do next. -/
inductive Action where
  | shift (state : Nat)
  | reduce (r : Rule)
  | accept
  | error
  deriving DecidableEq

/-- The action of a state for a terminal symbol: `yypact`, `yytable`, `yycheck` and `yydefact` of the
bison parser. (In a state with a default reduction only, bison does not read the next token.) -/
def action (s a : Nat) : Action :=
  match table.get s with
  | none => .error
  | some row =>
    if s = acceptState ∧ a = t_eof then .accept
    else match row.shift.lookup a with
      | some t => .shift t
      | none => match row.reduce.lookup a with
        | some r => .reduce r
        | none => match row.default with
          | some r => .reduce r
          | none => .error

/-- The state after a nonterminal: `yypgoto`, `yydefgoto`. -/
def goto (s a : Nat) : Option Nat :=
  match table.get s with
  | none => none
  | some row => row.goto.lookup a

end Verif.Parse'''%(len(rows),trans[0]['start']))
open('/verif/lean/Verif/Parse/Tables.lean','w').write('\n'.join(o)+'\n')
# items (annotations)
def mask(L):return sum(1<<num[t] for t in L)
q=['''import Verif.Parse.Tables
/-
The items of the states of the automaton with their lookahead, computed by tools/lalr.py: annotations for the proofs, not
part of the parser.
-/
namespace Verif.Parse

/-- A production, how much of its right hand side has been seen, and the terminals that may follow it, as a bit mask. -/
structure Item where
  rule : Rule
  dot : Nat
  look : Nat
''']
for s in range(len(states)):
    its=[] if s==fin else sorted(items[s].items(),key=lambda x:(-x[0][1]>0,x[0][1]==0,x[0][0]))
    q.append('private def i%d : List Item := [%s]'%(s,', '.join('⟨.%s, %d, %d⟩'%(names[p],d,mask(L)) for (p,d),L in its)))
def bt2(lo,step):
    idxs=list(range(lo,len(rows),step))
    if not idxs:return '.nil'
    if len(idxs)==1:return '(.leaf i%d)'%lo
    return '(.node %s %s)'%(bt2(lo,step*2),bt2(lo+step,step*2))
for k in range(8): q.append('private def c%d : Bin (List Item) := %s'%(k,bt2(k,8)))
q.append('''
/-- The items of the states, by number. -/
def itemTable : Bin (List Item) :=
  .node (.node (.node c0 c4) (.node c2 c6)) (.node (.node c1 c5) (.node c3 c7))

/-- The items of a state. -/
def items (s : Nat) : List Item := (itemTable.get s).getD []

/-- The terminals a symbol can begin with, as a bit mask. -/
def first (a : Nat) : Nat :=
  if a < numTerminals then 1 <<< a
  else [%s].getD (a - numTerminals) 0

/-- The symbols that can be empty. -/
def nullable (a : Nat) : Bool := [%s].contains a
'''%(', '.join(str(mask(first[n])) for n in nts),', '.join(sym[n] for n in nts if n in nullable)))
# weights
eps=[p for p,(l,r,_) in enumerate(prods) if not r]
u=[2 if any(p in eps for p in ([x[1] for x in rows[s][1]]+([rows[s][2]] if rows[s][2] is not None else []))) else 0 for s in range(len(states))]
wt={t:30 for t in terms}
# relax: longest-path style over productions with nonempty rhs: wt[l] <= sum(rhs)-1
for n in nts:wt[n]=1
# need wt[l] < sum wt rhs. raise weights: iterate from eps=1
# solve: unit chains. compute 'rank' as height from bottom: wt[n]=1+max over units where n is rhs -> must exceed lhs
ch=True
while ch:
    ch=False
    for l,r,_ in prods:
        if len(r)==1 and r[0] in wt and wt[r[0]]<=wt[l]:
            wt[r[0]]=wt[l]+1;ch=True
bad=0
for s in range(len(states)):
    for p in set([x[1] for x in rows[s][1]]+([rows[s][2]] if rows[s][2] is not None else [])):
        l,r,_=prods[p]
        gu=max([u[t] for q_ in range(len(states)) for a,t in rows[q_][3] if a==num[l]],default=0)
        if not wt[l]+gu<sum(wt[x] for x in r)+u[s]: bad+=1;print('bad',s,p,prods[p],wt[l],gu,u[s],[wt[x] for x in r])
print('bad',bad,{n:wt[n] for n in nts})
q.append('''/-- Weights of the symbols, for termination. -/
def weight (a : Nat) : Nat :=
  if a < numTerminals then 30
  else [%s].getD (a - numTerminals) 0

/-- Weight of a state on top of the stack: 2 if something empty can be reduced. -/
def bonus (s : Nat) : Nat := if [%s].contains s then 2 else 0

end Verif.Parse'''%(', '.join(str(wt[n]) for n in nts),', '.join(str(s) for s in range(len(states)) if u[s])))
open('/verif/lean/Verif/Parse/Items.lean','w').write('\n'.join(q)+'\n')
