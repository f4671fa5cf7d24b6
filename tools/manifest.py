#!/usr/bin/env python3
"""Regenerate MANIFEST.json: theorem names are collected from lean/Verif/Props (names Cnn_...)."""
import json, re, glob, os
root = os.path.dirname(os.path.dirname(os.path.abspath(__file__)))
notes = json.load(open(os.path.join(root, 'tools', 'notes.json')))
ths = {}
for f in sorted(glob.glob(os.path.join(root, 'lean/Verif/Props/*.lean'))):
    ns = 'GATL.Props'
    for m in re.finditer(r'^theorem (C(\d\d)_\S+)', open(f).read(), re.M):
        ths.setdefault('C' + m.group(2), []).append(ns + '.' + m.group(1))
claims = []
for l in open(os.path.join(root, 'properties.jsonl')):
    if not l.strip():
        continue
    i = json.loads(l)['id']
    t = ths.get(i, [])
    n = notes.get(i, {})
    st = n.get('status') or ('proved' if t and not any(x.endswith('_partial') for x in t) else 'partial')
    claims.append({'property': i, 'status': st, 'theorems': t, 'note': n.get('note', '' if t else 'not proved yet')})
json.dump({'claims': claims}, open(os.path.join(root, 'MANIFEST.json'), 'w'), indent=1)
