#!/usr/bin/env python3
"""Try wrong programs: apply edits to the model in a scratch copy and rebuild.

usage: mutate.py mutations.json
Each entry: {"definition", "file" (relative to lean/), "old", "new", "edit", "claim"}; "old" must occur exactly once.
Prints the theorems whose proofs break, and appends one line per attempt to /verif/seeded/LOG.jsonl
(only when --log is given).  With --first the build is stopped ten seconds after the first error.
"""
import json, os, re, signal, subprocess, sys, shutil, threading
SRC = '/verif/lean'
DST = '/tmp/mut/lean'

def sync():
    os.makedirs('/tmp/mut', exist_ok=True)
    subprocess.run(['rsync', '-a', '--delete', SRC + '/', DST + '/'], check=False) if shutil.which('rsync') else \
        subprocess.run(f'rm -rf {DST} && cp -a {SRC} {DST}', shell=True, check=True)
    # the replayed tests are no theorems
    root = os.path.join(DST, 'Verif.lean')
    lines = [l for l in open(root) if not l.startswith('import Verif.Tests')]
    open(root, 'w').writelines(lines)

def enclosing(path, line):
    lines = open(path).read().split('\n')
    for i in range(min(line, len(lines)) - 1, -1, -1):
        m = re.match(r'(?:@\[[^\]]*\]\s*)?(?:private |noncomputable )*(theorem|def|lemma|example|structure|instance)\b\s*(\S*)', lines[i])
        if m:
            return (m.group(1), m.group(2) if m.group(1) != 'example' else f'example@{i+1}')
    return ('?', '?')

def run_build(first):
    p = subprocess.Popen(['lake', 'build'], cwd=DST, stdout=subprocess.PIPE, stderr=subprocess.STDOUT, text=True, start_new_session=True)
    lines, timer = [], None
    for line in p.stdout:
        lines.append(line)
        if first and timer is None and re.match(r'error: (?:\./)?Verif/', line):
            timer = threading.Timer(10, lambda: os.killpg(p.pid, signal.SIGKILL))
            timer.start()
    rc = p.wait()
    if timer:
        timer.cancel()
    return rc, ''.join(lines)

def build(first=False):
    rc, out = run_build(first)
    failed = []
    for m in re.finditer(r'error: (?:\./)?(Verif/[\w/]+\.lean):(\d+):\d+', out):
        k = enclosing(os.path.join(DST, m.group(1)), int(m.group(2)))
        if k not in failed:
            failed.append(k)
    return rc, failed, out

def main():
    log = '--log' in sys.argv
    muts = json.load(open([a for a in sys.argv[1:] if not a.startswith('--')][0]))
    sync()
    for mu in muts:
        path = os.path.join(DST, mu['file'])
        orig = open(path).read()
        if orig.count(mu['old']) != 1:
            print('BAD', mu['definition'], orig.count(mu['old'])); continue
        open(path, 'w').write(orig.replace(mu['old'], mu['new']))
        rc, failed, out = build('--first' in sys.argv)
        thms = [n for k, n in failed if k in ('theorem', 'lemma')]
        exs = [n for k, n in failed if k == 'example']
        other = [n for k, n in failed if k not in ('theorem', 'lemma', 'example')]
        print(('SURVIVED' if rc == 0 else 'killed'), mu['definition'], '|', mu['edit'], '|', thms, exs, 'OTHER' if other else '', other, flush=True)
        if rc != 0 and not thms:
            print(out[-1500:])
        open(path, 'w').write(orig)
        if log:
            os.makedirs('/verif/seeded', exist_ok=True)
            with open('/verif/seeded/LOG.jsonl', 'a') as f:
                f.write(json.dumps({'definition': mu['definition'], 'edit': mu['edit'], 'claim': mu['claim'],
                                    'failed': thms, 'tightened': mu.get('tightened', [])}) + '\n')
main()
