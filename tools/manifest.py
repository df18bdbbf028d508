#!/usr/bin/env python3
"""Regenerates MANIFEST.json from the theorem names Cnn_* in lean/Verif/Props and tools/status.json."""
import re, json, glob, os
root = os.path.dirname(os.path.dirname(os.path.abspath(__file__)))
thms = {}
for f in sorted(glob.glob(root + '/lean/Verif/Props/*.lean')):
    txt = open(f).read()
    ns = 'Verif'
    for m in re.finditer(r'^(private )?theorem (C\d\d)_(\S+)', txt, re.M):
        if m.group(1): continue
        thms.setdefault(m.group(2), []).append(f'{ns}.{m.group(2)}_{m.group(3)}')
status = json.load(open(root + '/tools/status.json'))
props = [json.loads(l) for l in open(root + '/properties.jsonl') if l.strip()]
claims = []
for p in props:
    i = p['id']
    s = status.get(i, {})
    t = thms.get(i, [])
    if not t and s.get('status') != 'not_applicable':
        print('no theorems yet:', i, p['title']); continue
    st = s.get('status') or ('partial' if all(x.endswith('_partial') for x in t) else 'proved')
    claims.append({'property': i, 'status': st, 'theorems': t, 'note': s.get('note', '')})
json.dump({'claims': claims}, open(root + '/MANIFEST.json', 'w'), indent=1)
print(len(claims), 'claims', sum(len(c['theorems']) for c in claims), 'theorems')
