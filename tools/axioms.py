#!/usr/bin/env python3
"""axioms.py: write the axioms of all property theorems (Cnn_...) into DESIGN.md between the markers. Needs a finished build of lean/."""
import pathlib, re, subprocess, tempfile
root = pathlib.Path(__file__).resolve().parent.parent
src = """import Lean
import Verif
open Lean Elab Command
run_cmd do
  let env ← getEnv
  let mut out : Array String := #[]
  for (n, c) in env.constants.map₁.toList do
    if (match c with | .thmInfo _ => true | _ => false) then
      let last := match n with | .str _ s => s | _ => ""
      if last.length > 4 && last.front = 'C' && (last.drop 1).front.isDigit then
        let ax ← liftCoreM (collectAxioms n)
        out := out.push s!"{n} {ax.qsort (fun a b => a.toString < b.toString)}"
  for s in out.qsort (· < ·) do logInfo m!"AX {s}"
"""
with tempfile.NamedTemporaryFile("w", suffix=".lean", delete=False) as f: f.write(src)
r = subprocess.run(["lake", "env", "lean", f.name], cwd=root / "lean", capture_output=True, text=True)
groups = {}
for n, a in re.findall(r"AX (\S+) #\[(.*)\]", r.stdout): groups.setdefault(a, []).append(n)
lines = [f"Property theorems: {sum(map(len, groups.values()))}."]
for a in sorted(groups, key=lambda a: len(groups[a])):
    t = f"`{a}`" if a else "no axioms"
    if len(groups[a]) < 100: lines.append(f"* {t} ({len(groups[a])}): " + ", ".join(f"`{n}`" for n in sorted(groups[a])) + ".")
    else: lines.append(f"* {t} ({len(groups[a])}): all other property theorems.")
p = root / "DESIGN.md"
s = p.read_text()
b, e = "<!-- axioms -->", "<!-- /axioms -->"
p.write_text(s[:s.index(b) + len(b)] + "\n" + "\n".join(lines) + "\n" + s[s.index(e):])
print({a or "none": len(v) for a, v in groups.items()})
