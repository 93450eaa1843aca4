import re,glob,json,collections
# theorems whose names start with C<nn>_
thms=collections.OrderedDict()
for f in sorted(glob.glob('/verif/lean/Verif/**/*.lean',recursive=True)):
    ns=[]
    for line in open(f):
        m=re.match(r'namespace (\S+)',line)
        if m: ns.append(m.group(1))
        m=re.match(r'end (\S+)',line)
        if m and ns and ns[-1]==m.group(1): ns.pop()
        m=re.match(r'(?:private )?theorem (C(\d\d+)_\S*)',line)
        if m: thms.setdefault('C'+m.group(2),[]).append('.'.join(ns+[m.group(1)]))
try: notes=json.load(open('/verif/tools/notes.json'))
except Exception: notes={}
claims=[]
for l in open('/verif/properties.jsonl'):
    d=json.loads(l); i=d['id']
    if i in thms:
        n=notes.get(i,{})
        st=n.get('status') or ('partial' if any(t.endswith('_partial') for t in thms[i]) else 'proved')
        claims.append(dict(property=i,status=st,theorems=thms[i],note=n.get('note','')))
json.dump({'claims':claims},open('/verif/MANIFEST.json','w'),indent=1)
print(len(claims),[ (c['property'],c['status']) for c in claims])
