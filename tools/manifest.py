#!/usr/bin/env python3
"""Regenerate MANIFEST.json from tools/claims.json: {"C01": {"status":..., "ns":..., "theorems":[...], "note":...}}"""
import json
c=json.load(open('/verif/tools/claims.json'))
out=[]
for pid in [json.loads(l)['id'] for l in open('/verif/properties.jsonl')]:
    if pid not in c: continue
    d=c[pid]
    ns=d.get('ns','')
    th=[(ns+'.'+t if ns and not t.startswith('Gauche.') else t) for t in d['theorems']]
    out.append({"property":pid,"status":d['status'],"theorems":th,"note":d['note']})
json.dump({"claims":out},open('/verif/MANIFEST.json','w'),indent=1)
