import json,re,glob
# property -> (status, note); theorems found automatically by prefix in Props
T={}
import os
for f in sorted(glob.glob('/verif/lean/Verif/Props/*.lean')):
    s=open(f).read()
    for m in re.finditer(r'^theorem (C\d\d_\w+)',s,re.M):
        T.setdefault(m.group(1)[:3],[]).append('Verif.Props.'+m.group(1))
notes=json.load(open('/verif/tools/notes.json'))
ids=[json.loads(l)['id'] for l in open('/verif/properties.jsonl')]
claims=[]
for i in ids:
    if i in T and i in notes:
        claims.append({"property":i,"status":notes[i][0],"theorems":T[i],"note":notes[i][1]})
    elif i in T: print('no note for',i)
    elif i in notes: claims.append({"property":i,"status":notes[i][0],"theorems":[],"note":notes[i][1]})
json.dump({"claims":claims},open('/verif/MANIFEST.json','w'),indent=1)
print(len(claims),sum(len(c['theorems']) for c in claims))
