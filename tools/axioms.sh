#!/bin/sh
# Prints the axioms of every theorem named in MANIFEST.json (run after `lake build`).
cd "$(dirname "$0")/../lean" || exit 1
T=$(mktemp /tmp/AxXXXXXX.lean)
echo "import Verif" > "$T"
python3 - >> "$T" <<'PY'
import json
for c in json.load(open("../MANIFEST.json"))["claims"]:
    for t in c["theorems"]:
        print("#print axioms", t)
PY
lake env lean "$T" | tr '\n' ' ' | sed "s/'Symbolic/\n'Symbolic/g" | sed 's/  */ /g'
