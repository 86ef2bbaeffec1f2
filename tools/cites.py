"""Checks that the line ranges cited in doc comments exist and mention the cited C names."""
import re,glob,os
bad=0
for f in sorted(glob.glob('lean/Verif/**/*.lean',recursive=True)):
    src=open(f).read()
    for m in re.finditer(r'/-[-!]?(.*?)-/',src,re.S):
        c=m.group(1); ln=src[:m.start()].count('\n')+1
        for q in re.finditer(r'([\w./-]+\.(?:c|h|y|fble|def\.h)):(\d+)(?:-(\d+))?',c):
            name,a,b=q.group(1),int(q.group(2)),int(q.group(3) or q.group(2))
            paths=[p for p in glob.glob('/repo/**/'+os.path.basename(name),recursive=True)]
            if not paths: print(f,ln,'no file',name); bad+=1; continue
            ids=set(re.findall(r'\b(?:Fble|Fbld)?[A-Z][a-z]+[A-Z]\w+\b',c))
            ok=False;best=None
            for p in paths:
                L=open(p,errors='replace').read().split('\n')
                if b<=len(L):
                    seg='\n'.join(L[max(0,a-3):b])
                    hit=[i for i in ids if re.search(r'\b'+i+r'\b',seg)]
                    if hit or not ids: ok=True
            if not ok: print(f"{f}:{ln} {q.group(0)} ids={sorted(ids)[:4]}"); bad+=1
print('suspicious:',bad)
