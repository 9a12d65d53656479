#!/usr/bin/env python3
"""Seeded bug experiment: edit one model definition in a scratch copy, rebuild, log what fails.

usage: seed.py FILE DEFINITION CLAIM [--target T] [--tightened T1,T2] [--note N] < edit
where `edit` is OLD, a line with =====, and NEW."""
import sys, os, re, json, subprocess, argparse, shutil
ap = argparse.ArgumentParser()
ap.add_argument('file'); ap.add_argument('definition'); ap.add_argument('claim')
ap.add_argument('--edit', default=None); ap.add_argument('--tightened', default='')
ap.add_argument('--note', default=''); ap.add_argument('--target', default='Verif')
a = ap.parse_args()
old, new = sys.stdin.read().split('\n=====\n')
new = new.rstrip('\n'); old = old.rstrip('\n')
W = '/tmp/seed/lean'
os.makedirs('/tmp/seed', exist_ok=True)
shutil.rmtree(W, ignore_errors=True); subprocess.check_call(['cp', '-a', '/verif/lean', W])
p = os.path.join(W, a.file)
s = open(p).read()
assert s.count(old) == 1, f'old text occurs {s.count(old)} times'
open(p, 'w').write(s.replace(old, new))
r = subprocess.run(['lake', 'build', a.target], cwd=W, capture_output=True, text=True)
out = r.stdout + r.stderr
failed = []
for m in re.finditer(r'error: (Verif/[\w/]+\.lean):(\d+):', out):
    lines = open(os.path.join(W, m[1])).read().split('\n')
    name = None
    for i in range(int(m[2]) - 1, -1, -1):
        k = re.match(r'(?:@\[.*?\] *)?(?:private |protected )?(?:theorem|lemma|def|example|instance|structure|inductive)\b\s*([\w\.\']*)', lines[i])
        if k:
            name = k[1] or 'example'
            break
    t = f'{m[1][6:-5]}:{name}'
    if t not in failed:
        failed.append(t)
def imports(mod):
    return re.findall(r'^import (Verif[\w.]*)', open(os.path.join(W, mod.replace('.', '/') + '.lean')).read(), re.M)
bad = set('Verif.' + t.split(':')[0].replace('/', '.') for t in failed)
allm = []
for d, _, fs in os.walk(W + '/Verif'):
    for f in fs:
        if f.endswith('.lean'):
            allm.append(os.path.relpath(os.path.join(d, f), W)[:-5].replace('/', '.'))
blocked = set(); ch = True
while ch:
    ch = False
    for m in allm:
        if m not in blocked and m not in bad and any(i in bad or i in blocked for i in imports(m)):
            blocked.add(m); ch = True
rec = {'definition': f'{a.file}:{a.definition}', 'edit': a.edit or f'{old.strip()} -> {new.strip()}', 'claim_broken': a.claim,
       'theorems_failed': failed, 'property_modules_no_longer_built': sorted(m.split('.')[-1] for m in blocked | bad if '.Props.' in m),
       'tightened': [x for x in a.tightened.split(',') if x]}
if a.note: rec['note'] = a.note
print(json.dumps(rec))
if r.returncode == 0:
    print('!!!! BUILD STILL PASSES')
if os.environ.get('NOLOG') is None:
    open('/verif/seeded/LOG.jsonl', 'a').write(json.dumps(rec) + '\n')
