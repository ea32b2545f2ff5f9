#!/bin/sh
# Lists the axioms of every theorem named in MANIFEST.json (after `lake build`).
cd "$(dirname "$0")/../lean"
f=$(mktemp --suffix=.lean)
python3 - > "$f" <<'P'
import json
print("import Verif")
for t in sorted({t for c in json.load(open("../MANIFEST.json"))["claims"] for t in c["theorems"]}): print("#print axioms", t)
P
lake env lean "$f" | tr '\n' ' ' | sed "s/ '/\n'/g" | sed -E "s/^'(.*)' depends on axioms: \[(.*)\] *$/\1: \2/; s/^'(.*)' does not depend on any axioms *$/\1: none/; s/  +/ /g" > ../tools/axioms.txt
rm "$f"
