"""replace prop(...) lines in props_core.py: upd.py file.py, file defines `new` = {id: (title, statement, quantifier, why, anchors-source, plan)}"""
import re,sys
ns={}; exec(open(sys.argv[1]).read(),ns)
p='/verif/tools/props_core.py'; L=open(p).read().split('\n')
for k,(t,s,q,w,a,pl) in ns['new'].items():
    line=f'prop("{k}", {t!r}, {s!r}, {q!r}, {w!r}, {a}, {pl!r})'
    idx=[i for i,l in enumerate(L) if l.startswith(f'prop("{k}"')]
    if idx: L[idx[0]]=line
    else: L.append(line)
open(p,'w').write('\n'.join(L))
