#!/bin/sh
# Prints every axiom set used by a manifest theorem; anything but propext, Classical.choice and Quot.sound is reported.
cd "$(dirname "$0")/../lean" || exit 1
f=$(mktemp /tmp/axXXXX.lean)
python3 - > "$f" <<'P'
import json
print("import Verif")
for c in json.load(open("../MANIFEST.json"))["claims"]:
    for t in c["theorems"]: print("#print axioms", t)
P
lake env lean "$f" > /tmp/axioms.out 2>&1
python3 - <<'P'
import re
t = open("/tmp/axioms.out").read()
bad = [l for l in re.split(r"\n(?=')", t) if not re.search(r"does not depend on any axioms|depends on axioms: \[(propext|Classical\.choice|Quot\.sound|,|\s)*\]", l)]
print(len(re.findall(r"^'", t, re.M)), "theorems checked;", len(bad), "bad")
for b in bad: print(b)
with open("../AXIOMS.txt", "w") as o:
    for l in re.split(r"\n(?=')", t.strip()):
        m = re.match(r"'(.*?)' (does not depend on any axioms|depends on axioms: \[(.*)\])", l, re.S)
        if m: o.write(m.group(1) + ": " + (" ".join((m.group(3) or "none").split())) + "\n")
P
grep -nE 'sorry|admit|^axiom|native_decide|bv_decide|implemented_by|unsafe|maxHeartbeats 0' -r Verif
