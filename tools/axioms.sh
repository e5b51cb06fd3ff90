#!/bin/bash
# Print every property theorem whose axioms are not within {propext, Classical.choice, Quot.sound}.
cd "$(dirname "$0")/../lean"
{ echo "import Verif"; python3 - <<'P'
import json
for c in json.load(open('../MANIFEST.json'))['claims']:
    for t in c['theorems']: print('#print axioms', t)
P
} > /tmp/axcheck.lean
lake env lean /tmp/axcheck.lean > /tmp/axcheck.out 2>&1
python3 - <<'P'
import re
t=open('/tmp/axcheck.out').read()
bad=[l for l in re.split(r"\n(?=')",t) if not re.match(r"'[^']+' (does not depend on any axioms|depends on axioms: \[[^\]]*\])",l.strip(),re.S)]
allowed={'propext','Classical.choice','Quot.sound'}
n=0
for m in re.finditer(r"'([^']+)' depends on axioms: \[([^\]]*)\]",t):
    n+=1
    ax={a.strip() for a in m.group(2).split(',')}
    if not ax<=allowed: print('BAD',m.group(1),ax-allowed)
n+=len(re.findall("does not depend on any axioms",t))
print(n,'theorems checked'); 
if bad: print(bad[:5])
P
