#!/usr/bin/env python3
"""Regenerate DESIGN.md: tools/design_head.md + one section per property (statement from properties.jsonl, theorems and
their docstrings from lean/Verif/Props, method and limits from tools/design_notes.json)."""
import json, re, glob, os
root = os.path.dirname(os.path.dirname(os.path.abspath(__file__)))
props = [json.loads(l) for l in open(root + '/properties.jsonl')]
notes = json.load(open(root + '/tools/design_notes.json'))
full = {t.split('.')[-1]: t for c in json.load(open(root + '/MANIFEST.json'))['claims'] for t in c['theorems']}
th = {}
for f in sorted(glob.glob(root + '/lean/Verif/Props/*.lean')):
    s = open(f).read()
    for m in re.finditer(r'^theorem (C\d\d\d?)(\w*)', s, re.M):
        before = s[:m.start()].rstrip()
        doc = ''
        if before.endswith('-/'):
            i = before.rfind('/--')
            doc = ' '.join(before[i+3:-2].split())
        th.setdefault(m.group(1), []).append((m.group(1) + m.group(2), os.path.basename(f), doc))
out = [open(root + '/tools/design_head.md').read().rstrip(), '']
missing = []
for p in props:
    i = p['id']
    out.append(f"### {i} — {p['title']}")
    out.append('')
    out.append('*Property.* ' + p['statement'])
    out.append('')
    n = notes.get(i)
    if not n: missing.append(i); n = ['?', '']
    out.append('*Model and proof.* ' + n[0] + ((' *Limits.* ' + n[1]) if n[1] else ''))
    out.append('')
    for t, f, d in th.get(i, []):
        out.append(f"- `{full.get(t, 'KK.' + t)}` (Props/{f}): {d}")
    out.append('')
open(root + '/DESIGN.md', 'w').write('\n'.join(out))
print('no notes for', missing)
