#!/usr/bin/env python3
"""Writes lean/Verif.lean (imports of every module) and MANIFEST.json.
Theorem names are collected from Props*.lean by their Cnn_ prefix; status and notes are in tools/notes.json."""
import re,glob,os,json
root='/verif' if os.path.isdir('/verif/lean') else os.path.dirname(os.path.dirname(os.path.abspath(__file__)))
mods=sorted(os.path.basename(f)[:-5] for f in glob.glob(root+'/lean/Verif/*.lean'))
open(root+'/lean/Verif.lean','w').write(''.join(f'import Verif.{m}\n' for m in mods))
thms={}
for f in sorted(glob.glob(root+'/lean/Verif/Props*.lean')):
    for n in re.findall(r'^theorem\s+(C\d+_\S+)',open(f).read(),re.M):
        thms.setdefault(n.split('_')[0],[]).append('Parfu.Props.'+n)
notes=json.load(open(root+'/tools/notes.json'))
ids=[json.loads(l)['id'] for l in open(root+'/properties.jsonl')]
claims=[]
for i in ids:
    t=thms.get(i,[]); n=notes.get(i)
    if not t and not n: print('no theorem yet:',i); continue
    st=n['status'] if n else ('partial' if any(x.endswith('_partial') for x in t) else 'proved')
    claims.append({'property':i,'status':st,'theorems':t,'note':n['note'] if n else ''})
json.dump({'claims':claims},open(root+'/MANIFEST.json','w'),indent=1,ensure_ascii=False)
