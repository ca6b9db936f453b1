#!/usr/bin/env python3
"""Regenerates MANIFEST.json: collects theorems named Cnn_* from lean/Verif/Props, keeps status and notes of existing claims,
and writes /tmp/Axioms.lean, which prints the axioms of each of them (run with `lake env lean /tmp/Axioms.lean` in lean/)."""
import json, re, glob, os
root = os.path.dirname(os.path.dirname(os.path.abspath(__file__)))
thms, mods = {}, []
for f in sorted(glob.glob(root + '/lean/Verif/Props/*.lean')):
    mods.append('Verif.Props.' + os.path.basename(f)[:-5])
    ns = []
    for line in open(f):
        m = re.match(r'namespace (\S+)', line)
        if m: ns += [m.group(1)]
        m = re.match(r'end (\S+)', line)
        if m and ns and ns[-1] == m.group(1): ns.pop()
        m = re.match(r'(?:protected )?theorem ((C\d+)_\S+)', line)
        if m: thms.setdefault(m.group(2), []).append('.'.join(ns + [m.group(1)]))
path = root + '/MANIFEST.json'
old = {}
if os.path.exists(path):
    old = {c['property']: c for c in json.load(open(path))['claims']}
claims = []
for line in open(root + '/properties.jsonl'):
    p = json.loads(line)['id']
    o = old.get(p, {})
    if p in thms:
        st = o.get('status', 'proved')
        if not o.get('theorems'): st = 'proved'
        claims.append({'property': p, 'status': st, 'theorems': thms[p], 'note': o.get('note', '')})
json.dump({'claims': claims}, open(path, 'w'), indent=1, ensure_ascii=False)
with open('/tmp/Axioms.lean', 'w') as out:
    for m in mods: out.write(f'import {m}\n')
    for p in sorted(thms):
        for t in thms[p]: out.write(f'#print axioms {t}\n')
print(sum(map(len, thms.values())), 'theorems for', len(thms), 'of', len(claims), 'properties')
