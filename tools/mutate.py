"""Apply one edit to the model in a scratch copy, rebuild, and report which theorems fail.

Usage: mutate.py spec.json
spec.json: list of {"def", "file", "old", "new", "edit", "claim", "targets": ["Verif.Props.C01", ...]}
The scratch copy is /tmp/mut (created from /verif/lean with its build output).
Edits under which some theorem fails are appended to seeded/LOG.jsonl; survivors are printed.
"""
import json, os, re, subprocess, sys
SRC, MUT = '/verif/lean', '/tmp/mut'
LOG = '/verif/seeded/LOG.jsonl'

def sync():
    subprocess.run(['rsync', '-a', '--delete', SRC + '/', MUT + '/'], check=True) if subprocess.run(['which', 'rsync'], capture_output=True).returncode == 0 \
        else subprocess.run(f'mkdir -p {MUT} && cp -a {SRC}/. {MUT}/', shell=True, check=True)

def thm_at(path, line):
    name = None
    for i, l in enumerate(open(path), 1):
        m = re.match(r'(?:private |protected )?(?:theorem|lemma|def|instance|example)\s*([^\s:({]*)', l)
        if m: name = m.group(1) or 'example'
        if i >= line: break
    return name

def main():
    specs = json.load(open(sys.argv[1]))
    sync()
    targets = sorted({t for s in specs for t in s['targets']})
    r = subprocess.run(['lake', 'build'] + targets, cwd=MUT, capture_output=True, text=True)
    if r.returncode != 0:
        sys.exit('the targets do not build before any edit\n' + (r.stdout + r.stderr)[-600:])
    for s in specs:
        p = os.path.join(MUT, s['file'])
        txt = open(p).read()
        if txt.count(s['old']) != 1:
            print('BAD SPEC (count %d): %s / %s' % (txt.count(s['old']), s['def'], s['edit'])); continue
        open(p, 'w').write(txt.replace(s['old'], s['new']))
        try:
            r = subprocess.run(['lake', 'build'] + s['targets'], cwd=MUT, capture_output=True, text=True, timeout=1500)
        except subprocess.TimeoutExpired:
            print('TIMEOUT', s['def'], s['edit']); open(p, 'w').write(txt); continue
        out = r.stdout + r.stderr
        failed = []
        for f, ln in re.findall(r'error: (\S+?\.lean):(\d+):', out):
            t = thm_at(os.path.join(MUT, f), int(ln))
            d = f[len('Verif/'):-5].replace('/', '.') + ':' + str(t)
            if d not in failed: failed.append(d)
        open(p, 'w').write(txt)
        fail_in_model = [x for x in failed if x.startswith('Model.')]
        if r.returncode == 0:
            print('SURVIVED', s['def'], '|', s['edit'], '|', s['claim']); continue
        if fail_in_model and len(fail_in_model) == len(failed):
            print('MODEL BROKEN', s['def'], s['edit'], failed, out[-600:]); continue
        print('killed', s['def'], '|', s['edit'], '|', failed)
        with open(LOG, 'a') as fh:
            fh.write(json.dumps({'definition': s['def'], 'edit': s['edit'], 'claim_broken': s['claim'],
                                 'theorems_failed': failed, 'not_built': s['targets'], 'theorems_tightened': s.get('tightened', [])}, ensure_ascii=False) + '\n')
main()
