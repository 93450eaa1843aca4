"""Check that every anchor of properties.jsonl is an existing path in /repo, and that its line numbers are in range."""
import json, os, re
bad = 0
for line in open(os.path.join(os.path.dirname(__file__), '..', 'properties.jsonl')):
    p = json.loads(line)
    for a in p['anchors']:
        path, _, lines = a.partition(':')
        full = os.path.join('/repo', path)
        if not os.path.exists(full):
            print(p['id'], 'missing', a)
            bad += 1
        elif lines and os.path.isdir(full):
            print(p['id'], 'lines of a directory', a)
            bad += 1
        elif lines:
            n = len(open(full).read().splitlines())
            for x in re.findall(r'\d+', lines):
                if int(x) > n:
                    print(p['id'], 'out of range', a, n)
                    bad += 1
print('bad anchors:', bad)
