#!/bin/sh
# Write AXIOMS.txt: the axioms of every theorem named in MANIFEST.json.  Fails on unknown names.
cd /verif/lean && t=$(mktemp --suffix=.lean) && {
  echo 'import Verif'
  python3 -c "
import json
for c in json.load(open('/verif/MANIFEST.json'))['claims']:
    for t in c['theorems']:
        print('#print axioms', t)"
} > "$t" && lake env lean "$t" > /verif/AXIOMS.txt; rm -f "$t"
! grep "error(" /verif/AXIOMS.txt
