#!/usr/bin/env python3
"""Prints every file:lines citation of the model with the source lines at both ends, for review."""
import re,glob,os,sys
for f in sorted(glob.glob('/verif/lean/Verif/*.lean')):
    b=os.path.basename(f)
    if len(sys.argv)>1 and b[:-5] not in sys.argv[1:]: continue
    for i,l in enumerate(open(f),1):
        for m in re.finditer(r'((?:parfu_|tarentry)[A-Za-z_0-9]*\.(?:cc|hh|c|h)):(\d+)(?:-(\d+))?',l):
            src=open('/repo/'+m.group(1)).read().split('\n')
            a=int(m.group(2)); z=int(m.group(3) or a)
            print(f'{b}:{i}: {l.strip()[:90]}')
            print(f'     {a}: {src[a-1].strip()[:80]}')
            if z!=a: print(f'     {z}: {src[z-1].strip()[:80]}')
