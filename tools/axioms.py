#!/usr/bin/env python3
"""Axioms each claimed theorem depends on (runs Lean on a scratch file); writes the last section of DESIGN.md."""
import json,subprocess,re,os,tempfile
root=os.path.dirname(os.path.dirname(os.path.abspath(__file__)))
m=json.load(open(root+'/MANIFEST.json'))
ths=[t for c in m['claims'] for t in c['theorems']]
f=tempfile.NamedTemporaryFile('w',suffix='.lean',delete=False)
f.write('import Verif\n'+''.join('#print axioms %s\n'%t for t in dict.fromkeys(ths))); f.close()
o=subprocess.run(['lake','env','lean',f.name],cwd=root+'/lean',capture_output=True,text=True).stdout
o=re.sub(r'\n\s+',' ',o)
ax={}
for l in o.splitlines():
    a=re.match(r".*'(Parfu\.\S+)' depends on axioms: \[(.*)\]",l)
    if a: ax[a.group(1)]=tuple(sorted(a.group(2).replace(' ','').split(',')))
    a=re.match(r".*'(Parfu\.\S+)' does not depend on any axioms",l)
    if a: ax[a.group(1)]=()
groups={}
for t in dict.fromkeys(ths): groups.setdefault(ax.get(t),[]).append(t)
out='## Axioms per theorem\n\n'
for g,l in sorted(groups.items(),key=lambda x:len(x[0] or ())):
    out+='- **%s**: %s\n'%('no axioms' if g==() else ', '.join(g or ['?']),', '.join('`%s`'%t.split('.')[-1] for t in l))
d=root+'/DESIGN.md'
t=open(d).read()
t=t.split('## Axioms per theorem')[0].rstrip('\n')+'\n\n'+out
open(d,'w').write(t)
print({g:len(l) for g,l in groups.items()})
