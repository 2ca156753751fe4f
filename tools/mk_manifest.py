#!/usr/bin/env python3
"""Regenerate MANIFEST.json from tools/claims.json (status/note per property) and the theorem names found in lean/Verif/Props."""
import json, re, glob, os
root = os.path.join(os.path.dirname(__file__), '..')
props = [json.loads(l) for l in open(os.path.join(root, 'properties.jsonl')) if l.strip()]
claims = json.load(open(os.path.join(root, 'tools', 'claims.json')))
th = {}
for f in sorted(glob.glob(os.path.join(root, 'lean/Verif/Props/*.lean'))):
    ns = []
    for line in open(f):
        m = re.match(r'namespace (\S+)', line)
        if m: ns.append(m.group(1))
        m = re.match(r'end (\S+)', line)
        if m and ns and ns[-1] == m.group(1): ns.pop()
        m = re.match(r'(?:@\[[^\]]*\]\s*)?theorem (C\d{2,3})_(\S+)', line)
        if m:
            th.setdefault(m.group(1), []).append('.'.join(ns + [m.group(1) + '_' + m.group(2)]))
out = []
for p in props:
    i = p['id']
    c = claims.get(i)
    t = th.get(i, [])
    if c is None:
        if not t: continue
        c = {'status': 'partial' if any(x.endswith('_partial') for x in t) else 'proved', 'note': ''}
    out.append({'property': i, 'status': c['status'], 'theorems': t, 'note': c.get('note', '')})
missing = [p['id'] for p in props if p['id'] not in {o['property'] for o in out}]
json.dump({'claims': out}, open(os.path.join(root, 'MANIFEST.json'), 'w'), indent=1)
print(len(out), 'claims;', sum(o['status'] == 'proved' for o in out), 'proved;', 'not yet:', ' '.join(missing))
