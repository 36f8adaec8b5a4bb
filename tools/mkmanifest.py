#!/usr/bin/env python3
"""Writes MANIFEST.json from tools/claims.txt.
claims.txt: lines 'Cxx status | thm thm ... | note' ; every property not listed is skipped."""
import json,os
here=os.path.dirname(os.path.abspath(__file__))
props=[json.loads(l)['id'] for l in open(here+'/../properties.jsonl')]
claims={}
for l in open(here+'/claims.txt'):
    l=l.strip()
    if not l or l.startswith('#'): continue
    head,thms,note=[x.strip() for x in l.split('|',2)]
    pid,status=head.split()
    assert pid in props,pid
    c=claims.setdefault(pid,{"property":pid,"status":status,"theorems":[],"note":""})
    c["status"]=status
    c["theorems"]+= [ 'Lis.'+t for t in thms.split() ]
    c["note"]=(c["note"]+" "+note).strip()
json.dump({"claims":[claims[p] for p in props if p in claims]},open(here+'/../MANIFEST.json','w'),indent=1)
print("missing:",[p for p in props if p not in claims])
