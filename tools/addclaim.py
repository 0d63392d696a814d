"""addclaim.py ID STATUS thm,thm,... NOTE : replace or append a claim."""
import sys,os,re
p=os.path.join(os.path.dirname(os.path.abspath(__file__)),'claims.py')
s=open(p).read().rstrip()
assert s.endswith(']')
i,st,th,note=sys.argv[1:5]
import json
line='("%s","%s",%s,%s),'%(i,st,json.dumps([t if t.startswith("Golem.") else "Golem."+t for t in th.split(",")]),json.dumps(note,ensure_ascii=False))
lines=[l for l in s[:-1].rstrip().split('\n') if not l.startswith('("%s",'%i)]
open(p,'w').write('\n'.join(lines+[line,']'])+'\n')
