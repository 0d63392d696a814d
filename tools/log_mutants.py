#!/usr/bin/env python3
"""Append mutation results (one JSON object per line) to seeded/LOG.jsonl."""
import json,sys
out=open('/verif/seeded/LOG.jsonl','a')
T={('validate','unknown'):["Golem.C05_validated_has_verdict"],('tryEliminateVarsExcept',''):["Golem.C33_tryEliminateVarsExcept"]}
for f in sys.argv[1:]:
    for l in open(f):
        d=json.loads(l)
        surv=d.pop('SURVIVED',False)
        ti=d.get('tightened',[])
        if surv and not ti:
            for (k,e),v in T.items():
                if k==d['definition']: ti=v
        rec={"definition":d['definition'],"file":"lean/Verif/"+d['file'],"edit":d['edit'],"claim":d['claim'],"result":"survived" if surv else "killed","theorems_failed":d['theorems_failed'],"theorems_tightened":ti,"modules_not_built":d.get('failed_modules',[])}
        if d.get('note'): rec['note']=d['note']
        out.write(json.dumps(rec)+'\n')
