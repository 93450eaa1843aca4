"""Print every citation `path.py:lines` of the Lean files beside the first and last cited line in /repo, and check that path and lines exist.

usage: citations.py [substring of the Lean path]
A cited range should begin and end at a line with code; such ends are marked with `!` when they do not.
"""
import os, re, sys
ROOT = '/repo/discretehelpers'
HERE = os.path.join(os.path.dirname(os.path.abspath(__file__)), '..', 'lean', 'Verif')
want = sys.argv[1] if len(sys.argv) > 1 else ''
bad = total = 0
for d, _, files in sorted(os.walk(HERE)):
    for f in sorted(files):
        path = os.path.join(d, f)
        if not f.endswith('.lean') or want not in path:
            continue
        text = open(path).read().split('\n')
        for n, line in enumerate(text):
            for m in re.finditer(r'([\w/]+\.py):(\d+(?:-\d+)?(?:(?:, | and )\d+(?:-\d+)?)*)', line):
                total += 1
                name = next((re.sub(r'^.*?\b(def|inductive|structure|abbrev|theorem)\s+(\S+).*', r'\2', x) for x in text[n:n + 14]
                             if re.search(r'\b(def|inductive|structure|abbrev|theorem)\s', x) and not x.startswith('/--')), '?')
                src = os.path.join(ROOT, m.group(1))
                if not os.path.exists(src):
                    print('MISSING', os.path.relpath(path, HERE), n + 1, m.group(0)); bad += 1; continue
                lines = open(src).read().split('\n')
                for r in re.findall(r'\d+(?:-\d+)?', m.group(2)):
                    a, _, b = r.partition('-'); a = int(a); b = int(b or a)
                    if b > len(lines) or a > b:
                        print('RANGE', os.path.relpath(path, HERE), n + 1, m.group(0), len(lines)); bad += 1; continue
                    mark = '!' if not lines[a - 1].strip() or not lines[b - 1].strip() else ' '
                    bad += mark == '!'
                    print(f"{mark} {os.path.relpath(path, HERE)}:{n+1} {name} | {m.group(1)}:{r} | {lines[a-1].strip()[:60]} … {lines[b-1].strip()[:60]}")
print('citations:', total, 'suspicious:', bad)
