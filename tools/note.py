#!/usr/bin/env python3
"""note.py C10 "text" [status]: set the note of a property and regenerate the manifest."""
import json, sys, pathlib, subprocess
root = pathlib.Path(__file__).resolve().parent.parent
p = root / "tools/notes.json"
n = json.loads(p.read_text())
e = {"note": sys.argv[2]}
if len(sys.argv) > 3: e["status"] = sys.argv[3]
n[sys.argv[1]] = e
p.write_text(json.dumps(dict(sorted(n.items())), indent=1, ensure_ascii=False) + "\n")
subprocess.run([sys.executable, str(root / "tools/gen_manifest.py")], check=True)
