#!/usr/bin/env python3
"""Writes MANIFEST.json.  Theorem names are checked against the sources."""
import json, re, pathlib
root = pathlib.Path(__file__).resolve().parent.parent
names = set()
for f in (root / 'lean/Verif').rglob('*.lean'):
    ns = []
    for line in f.read_text().splitlines():
        m = re.match(r'namespace (\S+)', line)
        if m: ns.append(m.group(1)); continue
        m = re.match(r'end (\S+)', line)
        if m and ns and ns[-1] == m.group(1): ns.pop(); continue
        m = re.match(r'(?:private |protected |@\[[^\]]*\] )*theorem (\S+)', line)
        if m: names.add(m.group(1)[7:] if m.group(1).startswith('_root_.') else '.'.join(ns + [m.group(1)]))
C = []
def claim(p, status, thms, note=''):
    thms = ['Jmt.' + t for t in thms.split()]
    for t in thms:
        assert t in names, t
    C.append(dict(property=p, status=status, theorems=thms, note=note))
exec((root / 'tools/claims.py').read_text())
ids = [json.loads(l)['id'] for l in (root / 'properties.jsonl').read_text().splitlines()]
C.sort(key=lambda c: c['property'])
missing = [i for i in ids if i not in [c['property'] for c in C]]
if missing: print('no claim for', missing)
(root / 'MANIFEST.json').write_text(json.dumps({'claims': C}, indent=1) + '\n')
