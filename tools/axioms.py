#!/usr/bin/env python3
"""Writes AXIOMS.md: the axioms every theorem of MANIFEST.json depends on (needs a built lean/)."""
import json, os, re, subprocess, tempfile
here = os.path.dirname(os.path.abspath(__file__))
M = json.load(open(os.path.join(here, '..', 'MANIFEST.json')))['claims']
src = 'import Verif\n' + ''.join('#print axioms %s\n' % t for c in M for t in c['theorems'])
with tempfile.NamedTemporaryFile('w', suffix='.lean', delete=False) as f: f.write(src)
out = subprocess.run(['lake', 'env', 'lean', f.name], cwd=os.path.join(here, '..', 'lean'), capture_output=True, text=True).stdout
ax = {}
for m in re.finditer(r"'([^']+)' (?:depends on axioms: \[([^\]]*)\]|does not depend on any axioms)", out):
    ax[m.group(1)] = re.sub(r'\s+', ' ', m.group(2)) if m.group(2) else 'none'
bad = [t for c in M for t in c['theorems'] if t not in ax or set(ax[t].split(', ')) - {'none', 'propext', 'Classical.choice', 'Quot.sound'}]
L = ['# Axioms', '', 'Generated by `tools/axioms.py` (`#print axioms` for every theorem of MANIFEST.json).', '', '| property | theorem | axioms |', '|---|---|---|']
for c in M:
    for t in c['theorems']: L.append('| %s | `%s` | %s |' % (c['property'], t, ax.get(t)))
open(os.path.join(here, '..', 'AXIOMS.md'), 'w').write('\n'.join(L) + '\n')
print(len(ax), 'theorems;', 'not as expected:', bad)
