#!/bin/sh
# Lists the axioms every theorem named in MANIFEST.json depends on, into axioms.txt.
cd /verif/lean
{ echo "import Verif"; python3 -c "
import json
for c in json.load(open('/verif/MANIFEST.json'))['claims']:
    for t in c['theorems']: print('#print axioms', t)"; } > /tmp/axioms.lean
lake env lean /tmp/axioms.lean | tr '\n' ' ' | sed "s/ '\(AQ\)/\n'\1/g" | tr -s ' ' > /verif/axioms.txt
echo >> /verif/axioms.txt
