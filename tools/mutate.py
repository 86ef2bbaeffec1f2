#!/usr/bin/env python3
"""Run mutants of the model in a scratch copy and log which theorems fail.
usage: mutate.py mutants.json   (list of {id,file,old,new,definition,edit,claim,[tightened]})
Appends to seeded/LOG.jsonl."""
import json, os, re, shutil, subprocess, sys
ROOT = os.path.dirname(os.path.dirname(os.path.abspath(__file__)))
SCR = '/root/work/mut'
def sync():
    os.makedirs(SCR, exist_ok=True)
    subprocess.run(['rsync', '-a', '--delete', ROOT + '/lean/', SCR + '/'], check=True) if shutil.which('rsync') else (
        shutil.rmtree(SCR), shutil.copytree(ROOT + '/lean', SCR, symlinks=True))
def decl_at(path, line):
    name = '?'
    for i, l in enumerate(open(path), 1):
        if i > line: break
        m = re.match(r'\s*(?:@\[[^\]]*\]\s*)?(?:private |protected |noncomputable )*(theorem|lemma|def|example|instance|inductive|structure)\s*([^\s:({\[]*)', l)
        if m: name = m.group(2) or 'example@%d' % i
        if re.match(r'example\b', l): name = 'example'
    return name
def imports():
    g = {}
    for d, _, fs in os.walk(SCR + '/Verif'):
        for f in fs:
            if f.endswith('.lean'):
                p = os.path.join(d, f)
                m = os.path.relpath(p, SCR)[:-5].replace('/', '.')
                g[m] = [l.split()[1] for l in open(p) if l.startswith('import Verif')]
    return g
def main():
    muts = json.load(open(sys.argv[1]))
    sync()
    for m in muts:
        src = os.path.join(ROOT, 'lean', m['file']); dst = os.path.join(SCR, m['file'])
        s = open(src).read()
        if s.count(m['old']) < 1: print('NO MATCH', m['id']); continue
        n = m.get('nth', 0)
        parts = s.split(m['old'])
        s2 = m['old'].join(parts[:n+1]) + m['new'] + m['old'].join(parts[n+1:])
        open(dst, 'w').write(s2)
        r = subprocess.run(['timeout', '1200', 'lake', 'build'], cwd=SCR, capture_output=True, text=True)
        out = r.stdout + r.stderr
        errs = re.findall(r'error: (Verif/[\w/]+\.lean):(\d+):', out)
        failed = []
        for f, l in errs:
            d = f[:-5].replace('/', '.') + ':' + decl_at(os.path.join(SCR, f), int(l))
            if d not in failed: failed.append(d)
        g = imports(); bad = {f[:-5].replace('/', '.') for f, _ in errs}
        down = set(bad)
        while True:
            new = {k for k, v in g.items() if k not in down and any(x in down for x in v)}
            if not new: break
            down |= new
        claims = set()
        for k in down - bad:
            for l in open(os.path.join(SCR, k.replace('.', '/') + '.lean')):
                x = re.match(r'theorem (C\d\d_\w+)', l)
                if x: claims.add(k + ':' + x.group(1))
        rec = {'definition': m['definition'], 'file': 'lean/' + m['file'], 'edit': m['edit'], 'claim': m['claim'],
               'outcome': 'killed' if errs else ('SURVIVED' if r.returncode == 0 else 'no build'),
               'theorems_failed': failed[:12], 'property_theorems_lost_downstream': sorted(claims), 'theorems_tightened': m.get('tightened', [])}
        if m.get('note'): rec['note'] = m['note']
        print(m['id'], rec['outcome'], failed[:6], len(claims), flush=True)
        with open(ROOT + '/seeded/LOG.jsonl', 'a') as f: f.write(json.dumps(rec) + '\n')
        shutil.copy(src, dst)
main()
