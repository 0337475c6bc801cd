"""usage: addmods.py Model.X Spec.Y ...   adds imports to lean/Verif.lean (grouped)"""
import sys
p='/verif/lean/Verif.lean'
L=[l for l in open(p).read().split('\n') if l]
for m in sys.argv[1:]:
    i='import Verif.'+m
    if i in L: continue
    g=m.split('.')[0]
    idx=max([k for k,l in enumerate(L) if l.startswith('import Verif.'+g+'.')],default=len(L)-1)
    L.insert(idx+1,i)
open(p,'w').write('\n'.join(L)+'\n')
