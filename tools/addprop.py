#!/usr/bin/env python3
"""Append a property: addprop.py ID TITLE STATEMENT QUANTIFIER WHY ANCHOR..."""
import json, sys
i, t, s, q, w, *a = sys.argv[1:]
path = __file__.rsplit("/", 2)[0] + "/properties.jsonl"
ids = [json.loads(l)["id"] for l in open(path)]
assert i not in ids
with open(path, "a") as f:
    f.write(json.dumps({"id": i, "title": t, "statement": s, "quantifier": q, "why_tests_cant": w, "anchors": a}) + "\n")
