#!/usr/bin/env python3
"""DESIGN.md = tools/DESIGN.in.md with the findings of NOTES.md and the table of tools/axioms.txt filled in."""
import os, re, json
root = os.path.abspath(os.path.join(os.path.dirname(__file__), '..'))
d = open(root + '/tools/DESIGN.in.md').read()
notes = open(root + '/NOTES.md').read()
f = []
for line in notes.splitlines():
    m = re.match(r'(F\d+)\s+(.*)', line)
    if m: f.append('* **%s** %s' % m.groups())
    elif line.startswith('Others:'): f.append('* **Others** ' + line[7:].strip())
    elif f and line.startswith('    '): f[-1] += ' ' + line.strip()
a = []
for line in open(root + '/tools/axioms.txt'):
    m = re.match(r'\[(.*)\] (\d+) theorems', line)
    if m: a.append('\n**%s** (%s):' % ('no axioms' if m.group(1) == '(none)' else m.group(1), m.group(2)))
    else: a[-1] += ' `%s`,' % line.strip().replace('QF.', '', 1)
a = [x.rstrip(',') for x in a]
st = json.load(open(root + '/MANIFEST.json'))['claims']
tab = '\n'.join('| %s | %s | %s |' % (c['property'], c['status'], c['note'].replace('|', '/')) for c in st)
d = d.replace('@@FINDINGS@@', '\n'.join(f)).replace('@@AXIOMS@@', 'All names below are in namespace `QF`.\n' + '\n'.join(a) + '\n\n### Status per property\n\n| id | status | note |\n|---|---|---|\n' + tab)
d = re.sub(r'@@[A-Z]+@@\n?', '', d)
open(root + '/DESIGN.md', 'w').write(d)
