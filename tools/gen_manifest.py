#!/usr/bin/env python3
"""Collect the property theorems (named Cnn_...) from lean/Verif and write MANIFEST.json.

tools/notes.json: {"C01": {"status": "...", "note": "..."}}; the default status is "partial" when a theorem name ends in
_partial or contains _fails, otherwise "proved"."""
import json, re, pathlib
root = pathlib.Path(__file__).resolve().parent.parent
notes = json.loads((root / "tools/notes.json").read_text())
props = [json.loads(l)["id"] for l in (root / "properties.jsonl").read_text().splitlines() if l.strip()]
th = {}
for f in sorted((root / "lean/Verif").rglob("*.lean")):
    ns = []
    for line in f.read_text().splitlines():
        m = re.match(r"namespace (\S+)", line)
        if m: ns.append(m.group(1))
        m = re.match(r"end (\S+)", line)
        if m and ns and ns[-1] == m.group(1): ns.pop()
        m = re.match(r"(?:private |protected )?theorem (\S+)", line)
        if m:
            n = m.group(1)
            c = re.match(r"(C\d\d+)_", n)
            if c: th.setdefault(c.group(1), []).append(".".join(ns + [n]))
claims = []
for p in props:
    n = notes.get(p, {})
    t = th.get(p, [])
    if not t and "status" not in n: continue
    st = n.get("status") or ("partial" if any(x.endswith("_partial") or "_fails" in x for x in t) else "proved")
    claims.append({"property": p, "status": st, "theorems": t, "note": n.get("note", "")})
(root / "MANIFEST.json").write_text('{"claims": [\n' + ",\n".join(" " + json.dumps(c, ensure_ascii=False) for c in claims) + "\n]}\n")
print({s: sum(c["status"] == s for c in claims) for s in ("proved", "partial", "not_applicable")}, "missing", [p for p in props if p not in {c["property"] for c in claims}])
