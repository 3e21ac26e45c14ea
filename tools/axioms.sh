#!/bin/sh
# Regenerates AXIOMS.md; needs a finished build.
cd /verif && python3 - <<'P'
import json
m=json.load(open('MANIFEST.json')); ts=[]
for c in m['claims']:
    for t in c['theorems']:
        if t not in ts: ts.append(t)
open('/tmp/Ax.lean','w').write("import Verif\n"+"\n".join(f"#print axioms {t}" for t in ts)+"\n")
P
cd lean && lake env lean /tmp/Ax.lean > /tmp/ax.txt && python3 - <<'P'
import re
s=re.sub(r'\n\s+',' ',open('/tmp/ax.txt').read())
out=['# Axioms of the theorems in MANIFEST.json','','Generated with `#print axioms` (tools/axioms.sh).','']
for l in s.strip().split('\n'):
    m=re.match(r"'Strigi\.Props\.(.*)' (.*)",l)
    out.append(f"* `{m.group(1)}`: "+m.group(2).replace('depends on axioms: ','').replace('does not depend on any axioms','none'))
open('/verif/AXIOMS.md','w').write('\n'.join(out)+'\n')
P
