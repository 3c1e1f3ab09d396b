#!/usr/bin/env python3
"""seed.py SPEC.json [OUT.jsonl]: try wrong programs in a scratch copy.

Each entry of SPEC has: def, file (below lean/), old, new, edit, claim, targets (modules to build). The edit is made in
/tmp/seed/lean or $SEED_DIR (a copy of lean/), the targets are built, every theorem whose proof fails gets `sorry`, and this is repeated until
the targets build. Then all property theorems (Cnn_...) of the targets and their imports that depend on the missing proofs are
listed. One JSON line per entry is written to OUT."""
import json, os, re, subprocess, sys, shutil, pathlib, time
ROOT = pathlib.Path("/verif/lean"); SC = pathlib.Path(os.environ.get("SEED_DIR", "/tmp/seed/lean"))

def sync():
    SC.parent.mkdir(parents=True, exist_ok=True)
    subprocess.run(["rsync", "-a", "--delete", str(ROOT) + "/", str(SC) + "/"], check=True) if shutil.which("rsync") else \
        (shutil.rmtree(SC, ignore_errors=True), subprocess.run(["cp", "-a", str(ROOT), str(SC)], check=True))

DECL = re.compile(r"^(?:@\[[^\]]*\]\s*)?(?:private |protected |noncomputable )*(theorem|lemma|def|instance|structure|inductive|abbrev|example)\b\s*(\S*)")

def decl_range(lines, i):
    """the declaration containing line i (0-based)"""
    s = i
    while s >= 0 and not DECL.match(lines[s]): s -= 1
    if s < 0: return None
    e = s + 1
    while e < len(lines) and (lines[e].strip() == "" or lines[e][0] in " \t|)" ): e += 1
    return s, e

def sorry_out(text):
    depth = 0
    i = 0
    while i < len(text):
        c = text[i]
        if c in "([{⟨": depth += 1
        elif c in ")]}⟩": depth -= 1
        elif depth == 0 and text.startswith(":=", i) and not re.search(r"(^|[;\n,←→:(])\s*(let|have)\s[^;\n:]*(:[^;\n:]*)?$", text[:i]):
            return text[:i] + ":= by sorry\n\n"
        elif depth == 0 and text.startswith("\n  | ", i): return text[:i] + " := by sorry\n\n"
        elif depth == 0 and text.startswith(" where\n", i): return text[:i] + " := by sorry\n\n"
        i += 1
    return None

def namespace_of(lines, s):
    st = []
    for l in lines[:s]:
        m = re.match(r"^(namespace|section|end)\b\s*(\S*)", l)
        if not m: continue
        if m[1] == "namespace": st.append(m[2])
        elif m[1] == "section": st.append(None)
        elif st: st.pop()
    return ".".join(x for x in st if x)

def build(targets):
    r = subprocess.run(["lake", "build"] + targets, cwd=SC, capture_output=True, text=True)
    return r.returncode, r.stdout + r.stderr

def run(e):
    f = SC / e["file"]
    src = f.read_text()
    if src.count(e["old"]) != 1: return {"status": f"pattern found {src.count(e['old'])} times"}
    touched = {f: src}
    f.write_text(src.replace(e["old"], e["new"]))
    failed = []
    status = "ok"
    try:
        for it in range(25):
            rc, out = build(e["targets"])
            if rc == 0: break
            errs = {}
            for m in re.finditer(r"^error: (Verif/\S+\.lean):(\d+):\d+:(.*)$", out, re.M):
                errs.setdefault(m[1], []).append((int(m[2]) - 1, m[3]))
            if not errs: return {"status": "build error", "out": out[-1500:]}
            for p, ls in errs.items():
                pf = SC / p
                if pf not in touched: touched[pf] = pf.read_text()
                lines = pf.read_text().split("\n")
                done = set()
                rs = {}
                for ln, msg in sorted(ls):
                    r = decl_range(lines, min(ln, len(lines) - 1))
                    if r is not None: rs.setdefault(r, msg)
                for r, msg in sorted(rs.items(), reverse=True):
                    m = DECL.match(lines[r[0]])
                    ns = namespace_of(lines, r[0])
                    name = (ns + "." if ns else "") + m[2]
                    if m[1] not in ("theorem", "lemma", "example"): return {"status": f"definition fails: {p}: {name}: {msg}", "failed": failed}
                    if m[1] == "example":
                        failed.append("example of " + p)
                        lines[r[0]:r[1]] = ["example : True := trivial", ""]
                        continue
                    t = sorry_out("\n".join(lines[r[0]:r[1]]))
                    if t is None or name in failed: return {"status": f"cannot remove proof of {name}: {msg}", "failed": failed}
                    failed.append(name)
                    lines[r[0]:r[1]] = t.split("\n")
                pf.write_text("\n".join(lines))
        else: return {"status": "too many rounds", "failed": failed}
        # dependants
        q = SC / "Verif" / "SeedQuery.lean"
        q.write_text("import Lean\n" + "\n".join(f"import {t}" for t in e["targets"]) + """
open Lean Elab Command
run_cmd do
  let env ← getEnv
  let mut out : Array String := #[]
  for (n, c) in env.constants.map₁.toList do
    if (match c with | .thmInfo _ => true | _ => false) then
      let last := match n with | .str _ s => s | _ => ""
      if last.length > 4 && last.front = 'C' && (last.drop 1).front.isDigit then
        let ax ← liftCoreM (collectAxioms n)
        if ax.contains ``sorryAx then out := out.push n.toString
  for s in out.qsort (· < ·) do logInfo m!"DEP {s}"
""")
        r = subprocess.run(["lake", "env", "lean", str(q)], cwd=SC, capture_output=True, text=True)
        q.unlink()
        deps = re.findall(r"DEP (\S+)", r.stdout)
        if r.returncode != 0: status = "query failed " + (r.stdout + r.stderr)[-800:]
        return {"status": status, "failed": failed, "properties_failed": deps}
    finally:
        for p, t in touched.items(): p.write_text(t)

if __name__ == "__main__":
    spec = json.load(open(sys.argv[1])); outp = sys.argv[2] if len(sys.argv) > 2 else "/tmp/seed/out.jsonl"
    sync()
    for k, e in enumerate(spec):
        t = time.time()
        r = run(e)
        with open(outp, "a") as o: o.write(json.dumps({**e, **r, "secs": round(time.time() - t)}, ensure_ascii=False) + "\n")
        print(k, e["def"], r.get("status"), r.get("failed"), "->", r.get("properties_failed"), round(time.time() - t), flush=True)
