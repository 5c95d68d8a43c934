"""Print, grouped by axiom set, the axioms every theorem of MANIFEST.json depends on (run after `lake build`)."""
import collections
import json
import os
import re
import subprocess
import tempfile

root = os.path.join(os.path.dirname(os.path.abspath(__file__)), '..')
names = sorted({t for c in json.load(open(os.path.join(root, 'MANIFEST.json')))['claims'] for t in c['theorems']})
with tempfile.NamedTemporaryFile('w', suffix='.lean', delete=False) as f:
    f.write('import Verif\n' + '\n'.join('#print axioms ' + n for n in names))
out = subprocess.run(['lake', 'env', 'lean', f.name], cwd=os.path.join(root, 'lean'), capture_output=True, text=True).stdout
os.remove(f.name)
groups = collections.defaultdict(list)
for m in re.finditer(r"'([^\s]+)' depends on axioms: \[([^\]]*)\]", out):
    groups[', '.join(sorted(a.strip() for a in m.group(2).split(',')))].append(m.group(1).split('.')[-1])
for m in re.finditer(r"'([^\s]+)' does not depend on any axioms", out):
    groups['none'].append(m.group(1).split('.')[-1])
for g, ts in sorted(groups.items()):
    print(f'* {{{g}}} — {len(ts)} theorems: ' + ', '.join(f'`{t}`' for t in ts))
print('total', sum(map(len, groups.values())), 'of', len(names))
