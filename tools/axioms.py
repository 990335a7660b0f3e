#!/usr/bin/env python3
"""Print the axioms of every theorem in MANIFEST.json into AXIOMS.md (run after lake build)."""
import json, re, subprocess, collections
names = [t for c in json.load(open('/verif/MANIFEST.json'))['claims'] for t in c['theorems']]
src = 'import Verif\n' + ''.join(f'#print axioms {n}\n' for n in names)
open('/tmp/axioms_check.lean', 'w').write(src)
out = subprocess.run(['lake', 'env', 'lean', '/tmp/axioms_check.lean'], cwd='/verif/lean', capture_output=True, text=True).stdout
sets = collections.OrderedDict()
for m in re.finditer(r"'([^']+(?:'[^' ]*)*)' (does not depend on any axioms|depends on axioms: \[([^\]]*)\])", out):
    ax = ', '.join(sorted(x.strip() for x in (m.group(3) or '').split(','))) or 'none'
    sets.setdefault(ax, []).append(m.group(1))
found = sum(len(v) for v in sets.values())
with open('/verif/AXIOMS.md', 'w') as f:
    f.write('# Axioms of the property theorems\n\nGenerated by `tools/axioms.py` from `#print axioms`.\n')
    for ax, l in sets.items():
        f.write(f'\n## {ax}\n\n' + '\n'.join('* `%s`' % n for n in l) + '\n')
print(len(names), found, {k: len(v) for k, v in sets.items()})
