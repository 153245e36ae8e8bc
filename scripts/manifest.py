#!/usr/bin/env python3
"""Regenerate MANIFEST.json: collects theorems named Cxx_* per property; notes/status from notes.json."""
import json,re,glob,collections,os
root=os.path.dirname(os.path.dirname(os.path.abspath(__file__)))
th=collections.defaultdict(list)
for f in sorted(glob.glob(root+'/lean/Verif/**/*.lean',recursive=True)):
    ns=[]
    for line in open(f):
        m=re.match(r'namespace\s+(\S+)',line)
        if m: ns.append(m.group(1))
        m=re.match(r'end\s+(\S+)',line)
        if m and ns and ns[-1]==m.group(1): ns.pop()
        m=re.match(r"(?:noncomputable )?theorem\s+((C\d\d+)_[\w']*)",line)
        if m: th[m.group(2)].append('.'.join(ns+[m.group(1)]))
notes=json.load(open(root+'/scripts/notes.json'))
claims=[]
for l in open(root+'/properties.jsonl'):
    d=json.loads(l); i=d['id']; n=notes.get(i,{})
    t=th.get(i,[])+n.get('extra',[])
    st=n.get('status') or ('proved' if t and not any(x.endswith('_partial') for x in t) else 'partial')
    claims.append({"property":i,"status":st,"theorems":t,"note":n.get('note',d['title'] if t else 'not proved yet')})
json.dump({"claims":claims},open(root+'/MANIFEST.json','w'),indent=1,ensure_ascii=False)
print(collections.Counter(c['status'] for c in claims),[c['property'] for c in claims if not c['theorems']])
