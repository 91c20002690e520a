#!/bin/bash
# Regenerate AXIOMS.txt: the axioms each theorem of MANIFEST.json depends on.
cd /verif/lean && python3 - <<'P' > /tmp/ax.lean
import json
print("import Verif")
for c in json.load(open('/verif/MANIFEST.json'))['claims']:
    for t in c['theorems']: print("#print axioms",t)
P
lake env lean /tmp/ax.lean > /tmp/ax.out
python3 - <<'P'
import re
s=open('/tmp/ax.out').read()
s=re.sub(r'\n\s+',' ',s)
out=[]
for l in s.splitlines():
    m=re.match(r"'(.*)' depends on axioms: (\[.*\])",l)
    if m: out.append(f"{m[1]}: {m[2]}"); continue
    m=re.match(r"'(.*)' does not depend on any axioms",l)
    if m: out.append(f"{m[1]}: []"); continue
    print("??",l)
open('/verif/AXIOMS.txt','w').write('\n'.join(dict.fromkeys(out))+'\n')
ax=set(a.strip() for l in out for a in l.split('[',1)[1].rstrip(']').split(',') if a.strip())
print(len(out),ax)
P
