#!/usr/bin/env python3
"""Regenerate MANIFEST.json from the theorem names in lean/Verif/Props and the notes in tools/notes.json.
A theorem named Cnn_... belongs to property Cnn."""
import re, json, glob, os
root=os.path.dirname(os.path.dirname(os.path.abspath(__file__)))
thms={}
for f in sorted(glob.glob(root+'/lean/Verif/Props/*.lean')):
    ns=[]
    for line in open(f):
        m=re.match(r'namespace (\S+)',line)
        if m: ns.append(m.group(1))
        m=re.match(r'end (\S+)',line)
        if m and ns and ns[-1]==m.group(1): ns.pop()
        m=re.match(r'(?:noncomputable |private |protected )*theorem (_root_\.GoMetrics\.)?(C(\d+)_\S+)',line)
        if m: thms.setdefault('C'+m.group(3),[]).append('.'.join((['GoMetrics'] if m.group(1) else ns)+[m.group(2)]))
notes=json.load(open(root+'/tools/notes.json')) if os.path.exists(root+'/tools/notes.json') else {}
claims=[]
for l in open(root+'/properties.jsonl'):
    if not l.strip(): continue
    p=json.loads(l); i=p['id']
    t=thms.get(i,[])
    n=notes.get(i,{})
    st=n.get('status') or ('partial' if (not t or any(x.endswith('_partial') or x.endswith('_refuted') for x in t)) else 'proved')
    note=n.get('note') or ('not proved yet' if not t else '')
    claims.append({"property":i,"status":st,"theorems":t,"note":note})
json.dump({"claims":claims},open(root+'/MANIFEST.json','w'),indent=1,ensure_ascii=False)
print({s:sum(c['status']==s for c in claims) for s in ('proved','partial','not_applicable')}, 'no theorems:',[c['property'] for c in claims if not c['theorems']])
