#!/bin/bash
# Print the axioms of every theorem named in MANIFEST.json (after `lake build` in lean/).
cd "$(dirname "$0")/../lean"
f=$(mktemp /tmp/axiomsXXXX.lean)
python3 - > "$f" <<'P'
import json
names = sorted({t for c in json.load(open('../MANIFEST.json'))['claims'] for t in c['theorems']})
print('import Verif')
for n in names: print('#print axioms', n)
P
lake env lean "$f" | tr '\n' ' ' | sed "s/ '/\n'/g" | sort | uniq
rm -f "$f"
