#!/bin/sh
# Prints the axioms each theorem of MANIFEST.json depends on.
cd "$(dirname "$0")/../lean" || exit 1
t=$(mktemp --suffix=.lean)
echo "import Verif" > "$t"
python3 -c "
import json
for c in json.load(open('../MANIFEST.json'))['claims']:
    for n in c['theorems']: print('#print axioms', n)
" >> "$t"
lake env lean "$t"
rm "$t"
