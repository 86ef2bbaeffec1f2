"""Writes COVERAGE.md: the functions of the C sources and which lines of them are cited by the model."""
import re,glob,os
SRC=['lib/*.c','lib/parse.y','fbld/*.c','bin/*.c','pkgs/core/*.c','pkgs/app/*.c']
def funcs(p):
    L=open(p,errors='replace').read().split('\n'); out=[]; i=0
    while i<len(L):
        if L[i]=='{' and i>0 and not L[i-1].startswith('//'):
            j=i
            while j<len(L) and L[j]!='}': j+=1
            k=i-1
            while k>0 and L[k-1].strip() and not L[k-1].startswith(('//','}',' *','*/','#')): k-=1
            m=re.search(r'(\w+)\s*\(',' '.join(L[k:i]))
            if m: out.append((m.group(1),k+1,j+1))
            i=j
        elif re.match(r'^(static )?[\w*]+ .*\) \{$',L[i]):
            j=i
            while j<len(L) and L[j]!='}': j+=1
            m=re.search(r'(\w+)\s*\(',L[i]); out.append((m.group(1),i+1,j+1)); i=j
        i+=1
    return out
cited={}
files=sorted(sum([glob.glob('/repo/'+g) for g in SRC],[]))
base={}
for p in files: base.setdefault(os.path.basename(p),[]).append(p)
for f in sorted(glob.glob('lean/Verif/**/*.lean',recursive=True)):
    src=open(f).read()
    for m in re.finditer(r'/-[-!]?(.*?)-/',src,re.S):
        last=None
        for q in re.finditer(r'(?:([\w./-]+\.(?:c|y)):)?(\d+)(?:-(\d+))?',m.group(1)):
            if q.group(1): last=q.group(1)
            elif not last or m.group(1)[q.start()-2:q.start()] != ', ': continue
            ps=base.get(os.path.basename(last),[])
            if len(ps)>1:
                top=f.split('/')[2]
                want='/repo/fbld/' if top=='Fbld' or last.startswith('fbld/') else '/repo/lib/'
                ps=[x for x in ps if x.startswith(want)]
            for x in ps:
                for i in range(int(q.group(2)),int(q.group(3) or q.group(2))+1): cited.setdefault(x,{}).setdefault(i,f.split('/')[2])
out=['# Which functions are modelled','','Generated by `tools/coverage.py` from the citations in the model. "Part" means that only some','of the lines of the function are cited. The rest is not modelled.','']
for p in files:
    fs=funcs(p)
    if not fs: continue
    full=[];part=[];no=[]
    c=cited.get(p,{})
    for n,a,b in fs:
        ls=[i for i in range(a,b+1) if i in c]
        if len(ls)>=0.85*(b-a+1): full.append((n,c[ls[0]]))
        elif ls: part.append((n,c[ls[0]]))
        else: no.append(n)
    rel=p[len('/repo/'):]
    out.append(f'## {rel}')
    for name,xs in (('Modelled',full),('Part',part)):
        by={}
        for n,d in xs: by.setdefault(d,[]).append(n)
        for d,ns in by.items(): out.append(f'* {name} in `{d}`: '+', '.join(ns))
    if no: out.append('* Not modelled: '+', '.join(no))
    out.append('')
open('COVERAGE.md','w').write('\n'.join(out))
