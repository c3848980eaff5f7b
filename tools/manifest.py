#!/usr/bin/env python3
"""Add or replace a claim in MANIFEST.json: manifest.py ID STATUS NOTE THEOREM..."""
import json,sys,os
p=os.path.join(os.path.dirname(__file__),'..','MANIFEST.json')
m=json.load(open(p)) if os.path.exists(p) else {"claims":[]}
i,st,note,*th=sys.argv[1:]
m["claims"]=[c for c in m["claims"] if c["property"]!=i]+[{"property":i,"status":st,"theorems":th,"note":note}]
m["claims"].sort(key=lambda c:int(c["property"][1:]))
json.dump(m,open(p,'w'),indent=1)
