#!/usr/bin/env python3
"""addclaim.py FILE: FILE holds JSON {"claims":{id:{...}}, "props":[{...}], "imports":["X"]}"""
import json,sys
d=json.load(open(sys.argv[1]))
c=json.load(open('/verif/tools/claims.json')); c.update(d.get('claims',{})); json.dump(c,open('/verif/tools/claims.json','w'),indent=1,ensure_ascii=False)
ids={json.loads(l)['id'] for l in open('/verif/properties.jsonl')}
with open('/verif/properties.jsonl','a') as f:
    for p in d.get('props',[]):
        if p['id'] not in ids: f.write(json.dumps(p,ensure_ascii=False)+'\n')
imp=open('/verif/lean/Verif.lean').read()
for i in d.get('imports',[]):
    l=f'import Verif.Props.{i}\n'
    if l not in imp: imp+=l
open('/verif/lean/Verif.lean','w').write(imp)
import subprocess; subprocess.run(['python3','/verif/tools/manifest.py'])
