#!/usr/bin/env python3
"""Regenerate MANIFEST.json from the theorem names in lean/Verif/Props.

Every theorem named Cnn_... belongs to property Cnn. A property is `proved` unless it is listed in
PARTIAL below or has no theorem without the suffix `_partial` / `_counterexample`.
"""
import glob, json, os, re
root = os.path.dirname(os.path.dirname(os.path.abspath(__file__)))
NOTES = json.load(open(os.path.join(root, 'tools', 'notes.json')))
thms = {}
for f in sorted(glob.glob(os.path.join(root, 'lean/Verif/Props/*.lean'))):
    names = []
    for m in re.finditer(r'^(?:(namespace|end) (\S+)|theorem (C(\d\d+)_\w+))', open(f).read(), re.M):
        if m.group(1) == 'namespace':
            names.append(m.group(2))
        elif m.group(1) == 'end':
            if names and names[-1] == m.group(2):
                names.pop()
        else:
            thms.setdefault('C' + m.group(4), []).append('.'.join(names + [m.group(3)]))
claims = []
for line in open(os.path.join(root, 'properties.jsonl')):
    p = json.loads(line)
    t = thms.get(p['id'], [])
    n = NOTES.get(p['id'], {})
    if not t and n.get('status') != 'not_applicable':
        continue
    partial = any(x.endswith('_partial') or x.endswith('_counterexample') for x in t)
    status = n.get('status') or ('partial' if partial else 'proved')
    claims.append({'property': p['id'], 'status': status, 'theorems': t, 'note': n.get('note', '')})
json.dump({'claims': claims}, open(os.path.join(root, 'MANIFEST.json'), 'w'), indent=1)
print({s: sum(c['status'] == s for c in claims) for s in ('proved', 'partial', 'not_applicable')},
      sum(len(c['theorems']) for c in claims), 'theorems')
