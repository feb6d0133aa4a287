import json,re,glob
M={c['property']:c for c in json.load(open('/verif/MANIFEST.json'))['claims']}
props=[json.loads(l) for l in open('/verif/properties.jsonl')]
where={}
for f in glob.glob('/verif/lean/Verif/Props/*.lean'):
    for m in re.finditer(r'^theorem (C\d\d+)_',open(f).read(),re.M): where.setdefault(m.group(1),set()).add(f.split('/')[-1][:-5])
rows=[]
for d in sorted(props,key=lambda d:int(d['id'][1:])):
    c=M[d['id']]
    t=[x.split('.')[-1] for x in c['theorems']]
    pos=len([x for x in t if not x.endswith('_false')]); neg=len(t)-pos
    rows.append(f"| {d['id']} | {d['title']} | {', '.join(sorted(where.get(d['id'],[])))} | {pos} | {neg} | {c['status']} |")
body=open('/verif/tools/design_body.md').read()
open('/verif/DESIGN.md','w').write(body.replace('@@TABLE@@','\n'.join(rows)))
