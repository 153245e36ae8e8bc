#!/usr/bin/env python3
"""usage: addprops.py FILE.json -- append properties (list of objects) to properties.jsonl and add DESIGN rows / imports.
Object keys: props: list of property dicts; design: list of '| ids | method |' rows; imports: list of modules; findings: list."""
import json,sys
d=json.load(open(sys.argv[1]))
with open('properties.jsonl','a') as f:
    for p in d.get('props',[]): f.write(json.dumps(p,ensure_ascii=False)+"\n")
s=open('DESIGN.md').read()
i=s.index("\n## 3. Trusted base")
s=s[:i].rstrip()+"\n"+"".join(r+"\n" for r in d.get('design',[]))+s[i:]
i=s.index("\n## 7. Testing")
s=s[:i].rstrip()+"\n"+"".join("* "+r+"\n" for r in d.get('findings',[]))+s[i:]
open('DESIGN.md','w').write(s)
v=open('lean/Verif.lean').read().rstrip()
for m in d.get('imports',[]): v+="\nimport Verif."+m
open('lean/Verif.lean','w').write(v+"\n")
