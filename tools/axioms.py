#!/usr/bin/env python3
"""Print the axioms of every theorem of MANIFEST.json (run after `lake build`), grouped; writes tools/axioms.txt."""
import json, os, re, subprocess, tempfile
root = os.path.abspath(os.path.join(os.path.dirname(__file__), '..'))
names = [t for c in json.load(open(root + '/MANIFEST.json'))['claims'] for t in c['theorems']]
src = 'import Verif\n' + ''.join('#print axioms %s\n' % n for n in names)
f = os.path.join(tempfile.mkdtemp(), 'Ax.lean')
open(f, 'w').write(src)
out = subprocess.run(['lake', 'env', 'lean', f], cwd=root + '/lean', capture_output=True, text=True).stdout
out = re.sub(r'\n\s+', ' ', out)
g = {}
for line in out.splitlines():
    m = re.search(r"'(\S+)' depends on axioms: \[(.*?)\]", line)
    if m: g.setdefault(m.group(2), []).append(m.group(1)); continue
    m = re.search(r"'(\S+)' does not depend on any axioms", line)
    if m: g.setdefault('(none)', []).append(m.group(1))
    elif 'error' in line: print(line)
seen = sum(map(len, g.values()))
with open(root + '/tools/axioms.txt', 'w') as o:
    for k in sorted(g, key=lambda k: len(g[k])):
        o.write('[%s] %d theorems\n' % (k, len(g[k])))
        for n in g[k]: o.write('  %s\n' % n)
print({k: len(v) for k, v in g.items()}, 'of', len(names), 'seen', seen)
