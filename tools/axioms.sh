#!/bin/bash
# Prints the axioms every theorem named in MANIFEST.json depends on.
root=$(cd "$(dirname "$0")/.."; pwd)
cd "$root/lean"
f=$(mktemp --suffix=.lean)
echo "import Verif" > "$f"
python3 - "$root" >> "$f" <<'P'
import json,sys
for c in json.load(open(sys.argv[1]+"/MANIFEST.json"))["claims"]:
    for t in c["theorems"]: print("#print axioms", t)
P
lake env lean "$f" | tr '\n' ' ' | sed "s/ '/\n'/g" | sed 's/  */ /g'
echo
rm "$f"
