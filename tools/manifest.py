#!/usr/bin/env python3
"""Regenerate MANIFEST.json: collects theorems named Cxx_* from lean/Verif/Props and the notes in tools/notes.json
({"C01": {"status": "proved", "note": "..."}})."""
import json, re, glob, os
root = os.path.dirname(os.path.dirname(os.path.abspath(__file__)))
thms = {}
for f in sorted(glob.glob(root + '/lean/Verif/Props/*.lean')):
    src = open(f).read()
    for m in re.finditer(r'^theorem (C\d\d+_\S+)', src, re.M):
        thms.setdefault(m.group(1).split('_')[0], []).append('Verif.' + m.group(1))
notes = json.load(open(root + '/tools/notes.json'))
claims = []
for l in open(root + '/properties.jsonl'):
    i = json.loads(l)['id']
    n = notes.get(i)
    if n is None:
        if i in thms: print('no note for', i)
        continue
    t = thms.get(i, [])
    if not t and n['status'] != 'not_applicable': print('no theorems for', i); continue
    claims.append({'property': i, 'status': n['status'], 'theorems': t, 'note': n['note']})
json.dump({'claims': claims}, open(root + '/MANIFEST.json', 'w'), indent=1, ensure_ascii=False)
print(len(claims), 'claims', sum(len(c['theorems']) for c in claims), 'theorems')
