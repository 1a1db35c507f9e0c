#!/usr/bin/env python3
"""Regenerates MANIFEST.json from the theorem names in lean/Verif/Props and the notes below."""
import json, re, glob, os
root = os.path.dirname(os.path.dirname(os.path.abspath(__file__)))
notes = json.load(open(os.path.join(root, 'tools', 'notes.json')))
claims = []
props = [json.loads(l) for l in open(os.path.join(root, 'properties.jsonl'))]
for p in props:
    i = p['id']
    thms = []
    for f in sorted(glob.glob(os.path.join(root, 'lean', 'Verif', 'Props', i + '*.lean'))):
        src = open(f).read()
        thms += ['Slimcc.Props.' + t for t in re.findall(r'^theorem (%s_\w+)' % i, src, re.M)]
    if not thms:
        continue
    n = notes.get(i, {})
    claims.append({'property': i, 'status': n.get('status', 'proved'), 'theorems': thms, 'note': n.get('note', '')})
json.dump({'claims': claims}, open(os.path.join(root, 'MANIFEST.json'), 'w'), indent=1, ensure_ascii=False)
open(os.path.join(root, 'MANIFEST.json'), 'a').write('\n')
print(len(claims), 'claims of', len(props), 'missing', [p['id'] for p in props if p['id'] not in {c['property'] for c in claims}])
