#!/usr/bin/env python3
"""Regenerate MANIFEST.json and lean/Verif.lean from the sources.
Theorems named Cxx_... in lean/Verif/Props are attributed to property Cxx; a property is
'partial' if it is listed in PARTIAL or if every theorem of it ends in _partial."""
import json, re, glob, os
root = os.path.dirname(os.path.dirname(os.path.abspath(__file__)))
props = [json.loads(l) for l in open(root + '/properties.jsonl')]
thms = {}
for f in sorted(glob.glob(root + '/lean/Verif/Props/*.lean')):
    ns = []
    for l in open(f):
        m = re.match(r'namespace (\S+)', l)
        if m: ns.append(m.group(1))
        m = re.match(r'end (\S+)', l)
        if m and ns and ns[-1] == m.group(1): ns.pop()
        m = re.match(r'theorem (C\d\d\w*)', l)
        if m:
            thms.setdefault(m.group(1).split('_')[0], []).append('.'.join(ns + [m.group(1)]))
notes = json.load(open(root + '/tools/notes.json'))
claims = []
for p in props:
    i = p['id']
    t = thms.get(i, [])
    if not t:
        print('no theorem for', i)
        continue
    part = notes.get(i, {}).get('partial') or all(x.endswith('_partial') for x in t)
    claims.append({'property': i, 'status': 'partial' if part else 'proved', 'theorems': t,
                   'note': notes.get(i, {}).get('note', '')})
json.dump({'claims': claims}, open(root + '/MANIFEST.json', 'w'), indent=1, ensure_ascii=False)
mods = []
for d in ('Model', 'Spec', 'Test', 'Proofs', 'Props'):
    for f in sorted(glob.glob(f'{root}/lean/Verif/{d}/*.lean')):
        mods.append(f'import Verif.{d}.{os.path.basename(f)[:-5]}')
open(root + '/lean/Verif.lean', 'w').write('\n'.join(mods) + '\n')
print(len(claims), 'claims of', len(props))
