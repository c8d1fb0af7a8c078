#!/usr/bin/env python3
"""Regenerates the table of results in DESIGN.md from properties.jsonl and MANIFEST.json."""
import json, os, re
root = os.path.dirname(os.path.dirname(os.path.abspath(__file__)))
props = [json.loads(l) for l in open(f"{root}/properties.jsonl") if l.strip()]
claims = {c["property"]: c for c in json.load(open(f"{root}/MANIFEST.json"))["claims"]}
rows = ["| id | property | status | theorems in | note |", "|----|----|----|----|----|"]
for p in props:
    c = claims[p["id"]]
    ns = sorted({t.rsplit(".", 1)[0].removeprefix("Verif.") for t in c["theorems"]})
    rows.append(f"| {p['id']} | {p['title']} | {c['status']} | {', '.join(ns)} ({len(c['theorems'])}) | {c['note']} |")
d = open(f"{root}/DESIGN.md").read()
d = re.sub(r"<!-- table -->.*?<!-- end -->", lambda _: "<!-- table -->\n" + "\n".join(rows) + "\n<!-- end -->", d, flags=re.S)
open(f"{root}/DESIGN.md", "w").write(d)
