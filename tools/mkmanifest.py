#!/usr/bin/env python3
"""Build MANIFEST.json from the theorems named Cnn_... in lean/Verif/Props (and notes below)."""
import json,re,glob,os
root=os.path.dirname(os.path.dirname(os.path.abspath(__file__)))
thms={}
for f in sorted(glob.glob(root+'/lean/Verif/Props/*.lean')):
    src=open(f).read()
    for m in re.finditer(r'^theorem (C(\d\d\d?)_\w+)',src,re.M):
        thms.setdefault('C'+m.group(2),[]).append('Padasip.'+m.group(1))
notes=json.load(open(root+'/tools/notes.json'))
claims=[]
for l in open(root+'/properties.jsonl'):
    p=json.loads(l)['id']
    t=thms.get(p,[])
    if not t: continue
    n=notes.get(p,{})
    st=n.get('status') or ('partial' if all(x.endswith('_partial') for x in t) else 'proved')
    claims.append({'property':p,'status':st,'theorems':t,'note':n.get('note','')})
json.dump({'claims':claims},open(root+'/MANIFEST.json','w'),indent=1,ensure_ascii=False)
missing=[json.loads(l)['id'] for l in open(root+'/properties.jsonl') if json.loads(l)['id'] not in thms]
print(len(claims),'claims; missing:',' '.join(missing))
