"""Refresh section 6 of DESIGN.md from tools/axioms.py."""
import os
import subprocess
import sys

here = os.path.dirname(os.path.abspath(__file__))
path = os.path.join(here, '..', 'DESIGN.md')
text = open(path).read()
head = text[:text.index('## 6. Axioms per theorem')]
ax = subprocess.run([sys.executable, os.path.join(here, 'axioms.py')], capture_output=True, text=True).stdout
ax = '\n'.join(l for l in ax.split('\n') if not l.startswith('total'))
open(path, 'w').write(head + '## 6. Axioms per theorem\n\nPrinted by `tools/axioms.py` (`#print axioms` for every theorem of MANIFEST.json).\n\n' + ax)
