import re,json,glob,os
props=[json.loads(l)['id'] for l in open('/verif/properties.jsonl')]
notes=json.load(open('/verif/tools/notes.json')) if os.path.exists('/verif/tools/notes.json') else {}
th={}
for f in sorted(glob.glob('/verif/lean/Verif/Props/*.lean')):
    for m in re.finditer(r'^theorem (C(\d\d\d?)_\w+)',open(f).read(),re.M):
        th.setdefault('C'+m.group(2),[]).append('Lfest.'+m.group(1))
claims=[]
for p in props:
    if p in th:
        st='partial' if any(t.endswith('_partial') for t in th[p]) else 'proved'
        c={"property":p,"status":st,"theorems":th[p],"note":notes.get(p,"")}
        claims.append(c)
    elif p in notes and notes[p].startswith('NA:'):
        claims.append({"property":p,"status":"not_applicable","theorems":[],"note":notes[p][3:]})
json.dump({"claims":claims},open('/verif/MANIFEST.json','w'),indent=1,ensure_ascii=False)
print(len(claims),[c['property'] for c in claims if c['status']=='partial'], 'missing',[p for p in props if p not in th])
