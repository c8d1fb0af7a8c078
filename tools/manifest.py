#!/usr/bin/env python3
"""Regenerates MANIFEST.json from tools/claims.txt; properties without a claim line are listed as partial."""
import json, os
root = os.path.dirname(os.path.dirname(os.path.abspath(__file__)))
claims = {}
for line in open(f"{root}/tools/claims.txt"):
    line = line.strip()
    if not line or line.startswith("#"): continue
    p, st, th, note = [x.strip() for x in line.split("|", 3)]
    assert p not in claims, p
    assert st in ("proved", "partial", "not_applicable"), st
    claims[p] = dict(property=p, status=st, theorems=th.split(), note=note)
ids = [json.loads(l)["id"] for l in open(f"{root}/properties.jsonl") if l.strip()]
assert len(ids) == len(set(ids))
for p in claims: assert p in ids, p
for p in ids:
    if p not in claims:
        claims[p] = dict(property=p, status="partial", theorems=[], note="no theorem yet")
        print("no claim:", p)
out = dict(claims=[claims[p] for p in ids])
json.dump(out, open(f"{root}/MANIFEST.json", "w"), indent=1)
