#!/usr/bin/env python3
"""DESIGN.md = hand-written parts below + per-property table (theorem names from MANIFEST.json)."""
import json, os
root = os.path.dirname(os.path.dirname(os.path.abspath(__file__)))
props = [json.loads(l) for l in open(root + '/properties.jsonl')]
man = {c['property']: c for c in json.load(open(root + '/MANIFEST.json'))['claims']}
plan = json.load(open(root + '/tools/plan.json'))
head = open(root + '/tools/design_head.md').read()
tail = open(root + '/tools/design_tail.md').read()
out = [head, '## Properties: model and proof method\n',
       '| id | property | modelled by / proof method | status | theorems |', '|---|---|---|---|---|']
for p in props:
    c = man[p['id']]
    th = ', '.join('`' + t.replace('DTW.', '') + '`' for t in c['theorems'])
    note = (' ' + c['note']) if c['note'] else ''
    out.append(f"| {p['id']} | {p['title']} | {plan.get(p['id'], '')}{note} | {c['status']} | {th} |")
missing = [p['id'] for p in props if p['id'] not in plan]
open(root + '/DESIGN.md', 'w').write('\n'.join(out) + '\n\n' + tail)
print('plans missing:', missing)
