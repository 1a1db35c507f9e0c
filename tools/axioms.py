"""Write AXIOMS.md: the axioms each theorem of the manifest depends on."""
import json, re, subprocess
m = json.load(open('/verif/MANIFEST.json'))
names = [t for c in m['claims'] for t in c['theorems']]
src = 'import Verif\n' + ''.join(f'#print axioms {n}\n' for n in names)
open('/tmp/axioms.lean', 'w').write(src)
out = subprocess.run(['lake', 'env', 'lean', '/tmp/axioms.lean'], cwd='/verif/lean', capture_output=True, text=True)
text = re.sub(r'\n\s+', ' ', out.stdout)
res = {}
for l in text.splitlines():
    a = re.match(r"'(.*?)' depends on axioms: \[(.*)\]", l)
    b = re.match(r"'(.*?)' does not depend on any axioms", l)
    if a: res[a.group(1)] = a.group(2)
    elif b: res[b.group(1)] = ''
missing = [n for n in names if n not in res]
print(len(names), 'theorems', 'missing', missing, out.stderr[:500])
groups = {}
for n in names: groups.setdefault(res.get(n, '?'), []).append(n.split('.')[-1])
with open('/verif/AXIOMS.md', 'w') as f:
    f.write('# Axioms each theorem depends on\n\nGenerated by tools/axioms.py from `#print axioms`.\n')
    for k in sorted(groups):
        f.write('\n## ' + (k or 'none') + '\n\n')
        f.write(', '.join('`%s`' % n for n in groups[k]) + '\n')
