#!/bin/sh
# Print the axioms of every theorem in MANIFEST.json (run after `lake build` in lean/); output goes to AXIOMS.txt.
cd "$(dirname "$0")/.." || exit 1
t=$(mktemp --suffix=.lean)
python3 - > "$t" <<'P'
import json
print('import Verif')
for c in json.load(open('MANIFEST.json'))['claims']:
    for n in c['theorems']: print('#print axioms', n)
P
(cd lean && lake env lean "$t") | tr '\n' ' ' | sed "s/\] '/]\n'/g; s/  */ /g" > AXIOMS.txt
echo >> AXIOMS.txt
rm -f "$t"
