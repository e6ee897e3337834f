#!/usr/bin/env python3
"""MANIFEST.json from the theorem names in lean/Verif/Props/*.lean (Cnn_... -> property Cnn)."""
import json, re, glob, os
root = os.path.dirname(os.path.dirname(os.path.abspath(__file__)))
props = [json.loads(l) for l in open(root + '/properties.jsonl')]
notes = json.load(open(root + '/tools/notes.json'))
thms = {}
for f in sorted(glob.glob(root + '/lean/Verif/Props/*.lean')):
    for name in re.findall(r'^theorem\s+(C\d\d\w*)', open(f).read(), re.M):
        for c in re.findall(r'C\d\d', name):
            thms.setdefault(c, []).append('DTW.' + name)
claims = []
for p in props:
    i = p['id']
    t = thms.get(i, [])
    n = notes.get(i, {})
    t = t + n.get('extra', [])
    status = n.get('status') or ('proved' if t else 'not_applicable')
    if any(x.endswith('_partial') for x in t) and not n.get('status'): status = 'partial'
    claims.append({'property': i, 'status': status, 'theorems': t, 'note': n.get('note', '')})
json.dump({'claims': claims}, open(root + '/MANIFEST.json', 'w'), indent=1, ensure_ascii=False)
print(sum(c['status'] == 'proved' for c in claims), 'proved of', len(claims),
      'missing', [c['property'] for c in claims if not c['theorems']])
