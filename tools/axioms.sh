#!/bin/bash
# Prints the axioms each theorem of the manifest depends on, summarised.
cd "$(dirname "$0")/../lean"
T=$(mktemp --suffix=.lean)
python3 - > $T <<'P'
import json
print("import Verif")
for c in json.load(open('../MANIFEST.json'))['claims']:
    for t in c['theorems']: print("#print axioms", t)
P
lake env lean $T | tr '\n' ' ' | sed "s/'\(Kerch[^']*\)'/\n\1/g" | sed 's/^[^ ]* //' | sort | uniq -c
rm $T
