"""Usage: addprop.py < JSON lines -- append properties, replacing those with the same id."""
import json, sys, os
p = os.path.join(os.path.dirname(__file__), '..', 'properties.jsonl')
rows = [json.loads(l) for l in open(p)]
for l in sys.stdin:
    if l.strip():
        n = json.loads(l)
        rows = [r for r in rows if r['id'] != n['id']] + [n]
rows.sort(key=lambda r: r['id'])
open(p, 'w').write(''.join(json.dumps(r, ensure_ascii=False) + '\n' for r in rows))
