#!/bin/sh
# Prints the axioms of every theorem listed in MANIFEST.json and greps the sources for forbidden constructs.
cd "$(dirname "$0")/../lean" || exit 1
f=/tmp/audit_$$.lean
echo "import Verif" > $f
python3 -c "
import json
for c in json.load(open('../MANIFEST.json'))['claims']:
    for t in c['theorems']: print('#print axioms',t)" >> $f
lake env lean $f | tr '\n' ' ' | sed "s/'Splitgill/\n'Splitgill/g" | sed "s/^.*depends on axioms://;s/^.*does not depend on any axioms/none/" | sort | uniq -c
rm $f
grep -rnE "sorry|admit|^axiom |native_decide|bv_decide|implemented_by|unsafe |maxHeartbeats 0" Verif | head
