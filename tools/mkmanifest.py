import json,os,sys
sys.path.insert(0,os.path.dirname(__file__))
from claims import CLAIMS
root=os.path.dirname(os.path.dirname(os.path.abspath(__file__)))
ids=[json.loads(l)['id'] for l in open(root+'/properties.jsonl') if l.strip()]
have={c[0] for c in CLAIMS}
assert have<=set(ids),have-set(ids)
out={"claims":[{"property":a,"status":b,"theorems":c,"note":d} for a,b,c,d in sorted(CLAIMS)]}
json.dump(out,open(root+'/MANIFEST.json','w'),indent=1,ensure_ascii=False)
print("missing:",[i for i in ids if i not in have])
