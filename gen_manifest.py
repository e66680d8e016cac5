#!/usr/bin/env python3
"""Collects the theorems Cnn_* of lean/Verif/Props and writes MANIFEST.json."""
import re, json, glob, os
notes = json.load(open('manifest_notes.json'))
th = {}
for f in sorted(glob.glob('lean/Verif/Props/*.lean')):
    for m in re.finditer(r'^theorem (C(\d\d+)_\w+)', open(f).read(), re.M):
        th.setdefault('C' + m.group(2), []).append('Adwt.Props.' + m.group(1))
claims = []
for l in open('properties.jsonl'):
    i = json.loads(l)['id']
    if i not in th: continue
    n = notes.get(i, {})
    st = n.get('status') or ('partial' if any(t.endswith('_partial') for t in th[i]) else 'proved')
    claims.append({'property': i, 'status': st, 'theorems': th[i] + n.get('also', []), 'note': n.get('note', '')})
json.dump({'claims': claims}, open('MANIFEST.json', 'w'), indent=1, ensure_ascii=False)
print(len(claims), 'claims', sum(len(c['theorems']) for c in claims), 'theorems')
