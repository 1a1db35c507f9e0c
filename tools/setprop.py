"""Usage: setprop.py ID FIELD VALUE -- edit one field of one line of properties.jsonl."""
import json, sys, os
p = os.path.join(os.path.dirname(__file__), '..', 'properties.jsonl')
rows = [json.loads(l) for l in open(p)]
for r in rows:
    if r['id'] == sys.argv[1]:
        r[sys.argv[2]] = sys.argv[3]
open(p, 'w').write(''.join(json.dumps(r, ensure_ascii=False) + '\n' for r in rows))
