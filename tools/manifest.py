import re,glob,json
thms={}
for f in sorted(glob.glob('/verif/lean/Verif/Props/*.lean')):
    src=open(f).read()
    ns=re.search(r'^namespace (\S+)',src,re.M).group(1)
    for m in re.finditer(r'^theorem (?:_root_\.Aps\.Props\.)?(C\d\d)(\w*)',src,re.M):
        thms.setdefault(m.group(1),[]).append(('Aps.Props' if '_root_' in m.group(0) else ns)+'.'+m.group(1)+m.group(2))
notes=json.load(open('/verif/tools/notes.json'))
claims=[]
for l in open('/verif/properties.jsonl'):
    p=json.loads(l); i=p['id']
    t=thms.get(i,[])
    n=notes.get(i,{})
    if not t and not n: continue
    status=n.get('status') or ('proved' if t else 'not_applicable')
    claims.append({"property":i,"status":status,"theorems":t,"note":n.get('note','')})
json.dump({"claims":claims},open('/verif/MANIFEST.json','w'),indent=1)
print(len(claims),'claims')
