#!/usr/bin/env python3
"""Collect the doc comments of the counterexample theorems and of other findings into FINDINGS.md."""
import glob, re
rows = []
for p in sorted(glob.glob('/verif/lean/Verif/Props/*.lean')):
    s = open(p).read()
    for m in re.finditer(r'theorem (\S*?(C\d+)_\w+)', s):
        head = s[:m.start()].rstrip()
        doc = ''
        if head.endswith('-/'):
            doc = ' '.join(head[head.rindex('/--') + 3:-2].split())
        if not m.group(1).endswith('counterexample') and ', finding' not in doc.split('.')[0]:
            continue
        rows.append((m.group(2), m.group(1), doc, p.split('/')[-1]))
with open('/verif/FINDINGS.md', 'w') as f:
    f.write('# Proved counterexamples and other findings\n\nGenerated by `tools/findings.py` from the doc comments in `Verif/Props`.\n\n')
    for c, t, d, p in sorted(rows, key=lambda r: (int(r[0][1:]), r[1])):
        f.write(f'* **{c}** `{t}` ({p}): {d}\n')
print(len(rows), [t for _, t, d, _ in rows if not d])
