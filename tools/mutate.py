#!/usr/bin/env python3
"""Seeded-bug testing: apply each mutation of tools/mutations.py to a scratch copy of the Lean project, rebuild, and log
which theorems fail.  Usage: mutate.py [name-substring]   (results appended to seeded/LOG.jsonl)
MUT_TARGETS restricts the build to some modules."""
import json, os, re, shutil, subprocess, sys
SCR = '/tmp/mut'
sys.path.insert(0, '/verif/tools')
from mutations import M
done = set()
log = '/verif/seeded/LOG.jsonl'
os.makedirs('/verif/seeded', exist_ok=True)
if os.path.exists(log):
    for l in open(log):
        done.add(json.loads(l).get('name'))
sel = sys.argv[1] if len(sys.argv) > 1 else ''
subprocess.run(['rsync', '-a', '--delete', '/verif/lean/', SCR + '/'], check=True) if shutil.which('rsync') else subprocess.run('rm -rf %s; cp -a /verif/lean %s' % (SCR, SCR), shell=True, check=True)
def theorem_at(path, line):
    name = None
    for i, l in enumerate(open(path)):
        m = re.match(r'(?:private |protected |@\[[^\]]*\] )*(theorem|lemma|example|def|instance|structure|inductive)\s*([^\s:({\[]*)', l)
        if m and i < line: name = m.group(2) or m.group(1)
    return name
deps = {}
subprocess.run(['lake', 'env', 'lean', '/verif/tools/deps.txt'], cwd='/verif/lean')
for l in open('/tmp/deps/deps.txt'):
    w = l.split(); deps[w[0]] = set(w[1:])
def claims(failed):
    ns = ['Wagyu.' + f.split(' ')[0] for f in failed]
    return sorted(c.split('.')[1] for c, d in deps.items() if any(n in d for n in ns))
for m in M:
    if m['name'] in done or sel not in m['name']: continue
    p = SCR + '/Verif/' + m['file']
    src = open(p).read()
    if src.count(m['old']) < 1:
        print('NOT FOUND', m['name']); continue
    if src.count(m['old']) > 1 and not m.get('first'):
        print('AMBIGUOUS', m['name']); continue
    open(p, 'w').write(src.replace(m['old'], m['new'], 1))
    r = subprocess.run(['lake', 'build'] + os.environ.get('MUT_TARGETS', '').split(), cwd=SCR, capture_output=True, text=True)
    out = r.stdout + r.stderr
    failed = []
    for mm in re.finditer(r'^error: (Verif/\S+?\.lean):(\d+):', out, re.M):
        n = theorem_at(SCR + '/' + mm.group(1), int(mm.group(2)))
        s = '%s (%s)' % (n, mm.group(1))
        if s not in failed: failed.append(s)
    # modules that could not be built because an import failed
    blocked = []
    open(p, 'w').write(src)
    okk = r.returncode != 0
    rec = dict(name=m['name'], definition=m['defn'], file=m['file'], edit='%s  ==>  %s' % (m['old'].strip(), m['new'].strip()), claim=m['claim'],
               detected=okk, theorems_failed=claims(failed), first_broken_lemmas=failed, theorems_tightened=m.get('tightened', []))
    if not okk: rec['verdict'] = 'SURVIVED'
    print(('ok   ' if okk else 'SURVIVED '), m['name'], failed[:2], [c for c in claims(failed) if c[:3] in m['claim']], flush=True)
    if okk or m.get('log'):
        if not okk: rec['note'] = m['log']
        open(log, 'a').write(json.dumps(rec) + '\n')
