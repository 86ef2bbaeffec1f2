import re,sys,collections
src=open('/repo/lib/parse.y').read()
body=src.split('\n%%\n')[1]
lineoff=src[:src.index('\n%%\n')+4].count('\n')+1
# strip actions
out=[];i=0;depth=0;line=lineoff
toks=[]
while i<len(body):
    c=body[i]
    if depth>0:
        if c=='\n': line+=1
        if c=="'" and body[i+2]=="'": i+=3;continue
        if c=='"':
            j=i+1
            while body[j]!='"': j+=2 if body[j]=='\\' else 1
            i=j+1;continue
        if c=='{':depth+=1
        if c=='}':depth-=1
        i+=1;continue
    if c=='\n': line+=1;i+=1;continue
    if c.isspace(): i+=1;continue
    if body.startswith('//',i):
        i=body.index('\n',i);continue
    if c=='{': depth=1;i+=1;continue
    if c=="'": toks.append((body[i:i+3],line));i+=3;continue
    if c in ':|;': toks.append((c,line));i+=1;continue
    m=re.match(r'%?\w+',body[i:])
    toks.append((m.group(),line));i+=len(m.group())
prods=[('$accept',['start','END'],0)]
k=0
while k<len(toks):
    lhs=toks[k][0];assert toks[k+1][0]==':',toks[k:k+3];k+=2
    rhs=[];ln=toks[k][1]
    while True:
        t,l=toks[k]
        if t in'|;':
            prods.append((lhs,rhs,ln));rhs=[];k+=1
            if t==';':break
            ln=toks[k][1];continue
        if t!='%empty':rhs.append(t)
        k+=1
nts=[]
for l,_,_ in prods:
    if l not in nts:nts.append(l)
terms=['END','UNDEF','PARSE_PROGRAM','PARSE_MODULE_PATH','WORD']
for _,r,_ in prods:
    for s in r:
        if s not in nts and s not in terms:terms.append(s)
if __name__=='__main__':
    for n,p in enumerate(prods):print(n,p)
    print(len(nts),nts);print(len(terms),terms)
byl=collections.defaultdict(list)
for n,(l,r,_) in enumerate(prods):byl[l].append(n)
nullable=set();first={t:{t} for t in terms}
for n in nts:first[n]=set()
ch=True
while ch:
    ch=False
    for l,r,_ in prods:
        if all(s in nullable for s in r) and l not in nullable:nullable.add(l);ch=True
        for s in r:
            a=len(first[l]);first[l]|=first[s];ch|=len(first[l])!=a
            if s not in nullable:break
# LR0
def closure(K):
    I=list(K);S=set(I);q=0
    while q<len(I):
        p,d=I[q];q+=1
        r=prods[p][1]
        if d<len(r) and r[d] in byl:
            for n in byl[r[d]]:
                if (n,0) not in S:S.add((n,0));I.append((n,0))
    return I
states=[];idx={};trans=[]
def add(K):
    K=tuple(sorted(K))
    if K in idx:return idx[K]
    idx[K]=len(states);states.append(K);trans.append(None);return idx[K]
add([(0,0)])
q=0
while q<len(states):
    g=collections.OrderedDict()
    for p,d in closure(states[q]):
        r=prods[p][1]
        if d<len(r):g.setdefault(r[d],[]).append((p,d+1))
    trans[q]={s:add(v) for s,v in g.items()};q+=1
# LALR lookaheads: propagate on full items
FS=first['stmt']
items=[{it:set() for it in closure(K)} for K in states]
ext='--ext' in sys.argv or __name__!='__main__'
ALL=set(terms)
items[0][(0,0)]=set(ALL)
def firstseq(b,L):
    o=set()
    for s in b:
        o|=first[s]
        if s not in nullable:return o
    return o|L
prog=[n for n,p in enumerate(prods) if p[0]=='start']
ch=True
while ch:
    ch=False
    for s in range(len(states)):
        for (p,d),L in list(items[s].items()):
            r=prods[p][1]
            if d<len(r):
                t=trans[s][r[d]]
                M=items[t][(p,d+1)];a=len(M);M|=L;ch|=len(M)!=a
                if r[d] in byl:
                    F=firstseq(r[d+1:],L)
                    for n in byl[r[d]]:
                        if ext and p==0 and d==0: F=ALL-FS if n==prog[0] else ALL
                        M=items[s][(n,0)];a=len(M);M|=F;ch|=len(M)!=a
conf=0;acts=[]
for s in range(len(states)):
    row={t:('s',u) for t,u in trans[s].items() if t in terms}
    red=collections.OrderedDict()
    for (p,d),L in items[s].items():
        if d==len(prods[p][1]) and p!=0:
            red[p]=L
    for p,L in red.items():
        for t in L:
            if t in row:
                conf+=1;print('CONFLICT',s,t,row[t],p,prods[p])
            else: row[t]=('r',p)
    acts.append((row,red))
print('states',len(states),'conflicts',conf,'items',sum(map(len,items)), file=sys.stderr)
