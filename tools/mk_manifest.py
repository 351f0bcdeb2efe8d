import json,re,glob
notes=json.load(open('/tmp/m/notes.json'))
thms={}
for f in sorted(glob.glob('/verif/lean/Verif/Props/*.lean')):
    for m in re.finditer(r'^theorem (C\d+_\w+)',open(f).read(),re.M):
        thms.setdefault(m.group(1).split('_')[0],[]).append('Dashmm.'+m.group(1))
cl=[]
for l in open('/verif/properties.jsonl'):
    i=json.loads(l)['id']
    if i in thms:
        n=notes.get(i,{})
        cl.append(dict(property=i,status=n.get('status','proved'),theorems=thms[i],note=n.get('note','')))
json.dump({'claims':cl},open('/verif/MANIFEST.json','w'),indent=1)
print([ (c['property'],c['status'],len(c['theorems'])) for c in cl])
