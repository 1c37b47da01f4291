#!/usr/bin/env python3
"""Write AXIOMS.md (axioms of every theorem in MANIFEST.json) and DISCREPANCIES.md (the counterexample theorems
with their comments).  Needs a finished `lake build` in lean/."""
import json, os, re, subprocess, tempfile, glob

here = os.path.dirname(os.path.abspath(__file__))
root = os.path.dirname(here)
lean = os.path.join(root, "lean")
claims = json.load(open(os.path.join(root, "MANIFEST.json")))["claims"]
names = []
for c in sorted(claims, key=lambda c: c["property"]):
    for t in c["theorems"]:
        if t not in names:
            names.append(t)
with tempfile.NamedTemporaryFile("w", suffix=".lean", delete=False) as f:
    f.write("import Verif\n" + "".join(f"#print axioms {n}\n" for n in names))
out = subprocess.run(["lake", "env", "lean", f.name], cwd=lean, capture_output=True, text=True).stdout
os.unlink(f.name)
out = re.sub(r",\s*\n\s*", ", ", out)
ax = {}
for m in re.finditer(r"'([^']+)' (?:depends on axioms: \[([^\]]*)\]|does not depend on any axioms)", out):
    ax[m.group(1)] = m.group(2) or "none"
missing = [n for n in names if n not in ax]
if missing:
    raise SystemExit(f"no answer for {missing}")
with open(os.path.join(root, "AXIOMS.md"), "w") as f:
    f.write("# Axioms of the theorems in MANIFEST.json\n\nWritten by `tools/gen_reports.py` from `#print axioms`.\n\n")
    f.write("| theorem | axioms |\n|---|---|\n")
    for n in names:
        f.write(f"| `{n}` | {ax[n]} |\n")

rows = []
for p in glob.glob(os.path.join(lean, "Verif", "**", "*.lean"), recursive=True):
    s = open(p).read()
    for m in re.finditer(r"(?:/--((?:(?!-/).)*)-/\s*)?theorem ((C\d\d)_counterexample_\w+)", s, re.S):
        text = " ".join((m.group(1) or "").split())
        rows.append((m.group(3), m.group(2), os.path.relpath(p, lean), text))
with open(os.path.join(root, "DISCREPANCIES.md"), "w") as f:
    f.write("# Where the code departs from the properties\n\nWritten by `tools/gen_reports.py` from the comments of the "
            "counterexample theorems.  Each is a proof about the model that the property as stated fails; the\n"
            "definitions it refers to cite the code.\n\n| property | theorem | module | what goes wrong |\n|---|---|---|---|\n")
    for r in sorted(rows):
        f.write("| {} | `{}` | {} | {} |\n".format(*[x.replace("|", "\\|") for x in r]))
