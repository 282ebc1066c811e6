#!/bin/sh
# Prints the axioms of every theorem in MANIFEST.json (run after `lake build`); the output is kept in axioms.txt.
cd "$(dirname "$0")/../lean" || exit 1
f=$(mktemp /tmp/axXXXX.lean)
python3 - > "$f" <<'P'
import json
m = json.load(open('../MANIFEST.json'))
print("import Verif")
for t in sorted({t for c in m['claims'] for t in c['theorems']}):
    print("#print axioms " + t)
P
lake env lean "$f"
rm -f "$f"
