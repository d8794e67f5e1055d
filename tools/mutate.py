#!/usr/bin/env python3
"""Mutation testing: mutate.py MUTATIONS.json OUT.jsonl

Each mutation: {"file": "Verif/Model/X.lean", "old": "...", "new": "...", "definition": "...", "edit": "...",
"claim": "..."}. Works in a scratch copy outside /verif; builds the files of the properties named in the claim first and, if they
still build, everything; reports the declarations whose proof breaks and the property files that no longer build."""
import json, os, re, shutil, subprocess, sys
SRC = os.environ.get('MUT_SRC', '/root/mut/base')
DST = '/root/mut/lean'
def sync():
    subprocess.run(['rsync', '-a', '--delete', SRC + '/', DST + '/'], check=True) if shutil.which('rsync') else (
        shutil.rmtree(DST, ignore_errors=True), subprocess.run(['cp', '-a', SRC, DST], check=True))
def decl_at(path, line):
    ls = open(path).read().split('\n')
    for i in range(min(line, len(ls)) - 1, -1, -1):
        m = re.match(r'(?:@\[[^\]]*\]\s*)?(?:private |protected |noncomputable )*(theorem|lemma|def|instance|structure|example|inductive)\s*([^\s:({\[]*)', ls[i])
        if m:
            return m.group(2) if m.group(1) != 'example' else 'example'
    return '?'
muts = json.load(open(sys.argv[1]))
out = open(sys.argv[2], 'a')
for m in muts:
    sync()
    p = os.path.join(DST, m['file'])
    s = open(p).read()
    n = s.count(m['old'])
    if n != 1:
        print('BAD', n, m['definition'], m['edit']); sys.stdout.flush(); continue
    open(p, 'w').write(s.replace(m['old'], m['new']))
    props = sorted(x[:-5] for x in os.listdir(os.path.join(DST, 'Verif/Props')) if x.endswith('.lean'))
    ids = re.findall(r'C\d\d', m['claim'])
    near = [x for x in props if any(re.search(r'^theorem ' + c + '_', open(os.path.join(DST, 'Verif/Props', x + '.lean')).read(), re.M) for c in ids)]
    txt = ''
    for targets in ([['Verif.Props.' + x for x in near]] if near else []) + [[]]:
        r = subprocess.run(['lake', 'build'] + targets, cwd=DST, capture_output=True, text=True)
        txt = r.stdout + r.stderr
        if r.returncode != 0: break
    fails = []
    for f, l in re.findall(r'error: (\S+?\.lean):(\d+):', txt):
        d = decl_at(os.path.join(DST, f), int(l))
        nm = os.path.basename(f)[:-5] + ':' + d
        if nm not in fails: fails.append(nm)
    lost = [x for x in (near if targets else props) if subprocess.run(['lake', 'build', '--no-build', 'Verif.Props.' + x], cwd=DST, capture_output=True).returncode != 0] if fails else []
    rec = {'definition': m['definition'], 'edit': m['edit'], 'breaks': m['claim'], 'failed': fails,
           'property_files_lost': lost, 'tightened': []}
    out.write(json.dumps(rec) + '\n'); out.flush()
    print('KILLED' if fails else 'SURVIVED', m['definition'], '|', m['edit'], '|', fails[:6], lost); sys.stdout.flush()
