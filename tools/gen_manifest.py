#!/usr/bin/env python3
"""Writes ../MANIFEST.json from the table below and checks that every named theorem exists in lean/Verif/Props."""
import json, os, re, glob
here = os.path.dirname(os.path.abspath(__file__))
C = {}
exec(open(os.path.join(here, 'claims.py')).read())
names = set()
for f in glob.glob(os.path.join(here, '../lean/Verif/Props/*.lean')):
    for m in re.finditer(r'^(?:noncomputable )?theorem\s+(\S+)', open(f).read(), re.M):
        names.add(m.group(1))
ids = [json.loads(l)['id'] for l in open(os.path.join(here, '../properties.jsonl'))]
claims, used = [], set()
for i in ids:
    if i not in C:
        print('missing', i); continue
    status, thms, note = C[i]
    for t in thms:
        if t not in names: print('UNKNOWN THEOREM', i, t)
        used.add(t)
    claims.append(dict(property=i, status=status, theorems=['Meanas.Props.' + t for t in thms], note=note))
for n in sorted(names - used):
    if re.match(r'C\d\d', n): print('unused', n)
json.dump(dict(claims=claims), open(os.path.join(here, '../MANIFEST.json'), 'w'), indent=1, ensure_ascii=False)
print(len(claims), 'claims', sum(len(c['theorems']) for c in claims), 'theorems')
