#!/usr/bin/env python3
"""seedlog.py OUT.jsonl...: append the results of seed.py to seeded/LOG.jsonl (entries with status ok only)."""
import json, pathlib, sys
log = pathlib.Path(__file__).resolve().parent.parent / "seeded/LOG.jsonl"
with log.open("a") as o:
    for p in sys.argv[1:]:
        for l in open(p):
            d = json.loads(l)
            if d["status"] != "ok": print("skipped", d["def"], d["status"][:100]); continue
            if not d["properties_failed"]: print("SURVIVED", d["def"], d["edit"]); continue
            failed = sorted(set(d["failed"]))
            o.write(json.dumps({"definition": d["def"], "file": "lean/" + d["file"], "edit": d["edit"], "old": d["old"], "new": d["new"],
                "claim_broken": d["claim"], "proofs_failed": failed, "theorems_failed": d["properties_failed"],
                "theorems_tightened": d.get("tightened", [])}, ensure_ascii=False) + "\n")
