#!/bin/bash
# Prints the axioms of every theorem named in MANIFEST.json (run after 'lake build').
cd "$(dirname "$0")/../lean"
f=$(mktemp --suffix=.lean)
echo "import Verif" > $f
python3 - >> $f <<'PY'
import json
for c in json.load(open('../MANIFEST.json'))['claims']:
    for t in c['theorems']: print('#print axioms', t)
PY
lake env lean $f | grep -o "depends on axioms: .*\|does not depend.*\|error.*" | sort | uniq -c
rm -f $f
