#!/usr/bin/env python3
"""Apply seeded bugs to a scratch copy of the model, rebuild, and log which theorems fail.

usage: mutate.py BATCH.json   (list of {file, def, old, new, edit, claim, tightened?})
Each entry is applied alone to a fresh copy in /tmp/mut; one line per entry is appended to
seeded/LOG.jsonl (unless --dry)."""
import json, os, re, shutil, subprocess, sys
SRC, DST = "/verif/lean", "/tmp/mut"
dry = "--dry" in sys.argv
batch = json.load(open([a for a in sys.argv[1:] if not a.startswith("--")][0]))
if not os.path.exists(DST):
    shutil.copytree(SRC, DST, symlinks=True)

def sync():
    subprocess.run(["rsync", "-a", "--delete", "--exclude", ".lake", SRC + "/", DST + "/"], check=True) \
        if shutil.which("rsync") else copy_all()

def copy_all():
    shutil.rmtree(DST + "/Verif"); shutil.copytree(SRC + "/Verif", DST + "/Verif")
    shutil.copy(SRC + "/Verif.lean", DST + "/Verif.lean")

def enclosing(path, line):
    name = "?"
    ns = ""
    for i, l in enumerate(open(path), 1):
        m = re.match(r"\s*namespace\s+(\S+)", l)
        if m: ns = m.group(1)
        m = re.match(r"\s*(?:@\[[^\]]*\]\s*)?(?:private\s+|protected\s+)?(theorem|def|example|instance|inductive)\s*([^\s:({\[]*)", l)
        if m and i <= line: name = m.group(2) or m.group(1)
    # last decl at or before the line
    name = "?"
    for i, l in enumerate(open(path), 1):
        if i > line: break
        m = re.match(r"\s*(?:@\[[^\]]*\]\s*)?(?:private\s+|protected\s+)?(theorem|def|example|instance|inductive)\s*([^\s:({\[]*)", l)
        if m: name = m.group(2) or "example"
    return name

for b in batch:
    sync()
    p = os.path.join(DST, "Verif", b["file"])
    s = open(p).read()
    if s.count(b["old"]) < 1:
        print("NOT FOUND", b["def"], b["old"]); continue
    s = s.replace(b["old"], b["new"], 1)
    open(p, "w").write(s)
    mod = b.get("target", "Verif")
    r = subprocess.run(["lake", "build", mod], cwd=DST, capture_output=True, text=True)
    failed, first = [], ""
    for m in re.finditer(r"^error: (Verif/\S+\.lean):(\d+):(\d+): (.*)$", r.stdout + r.stderr, re.M):
        if not first: first = m.group(4)[:100]
        n = enclosing(os.path.join(DST, m.group(1)), int(m.group(2)))
        n = m.group(1)[6:-5].replace("/", ".") + ":" + n
        if n not in failed: failed.append(n)
    ok = r.returncode == 0
    print(("SURVIVED " if ok else "killed   ") + b["def"] + " | " + b["edit"] + " | " + ", ".join(failed[:6]))
    if not dry:
        rec = {"definition": b["def"], "edit": b["edit"], "claim": b["claim"],
               "failed": failed, "tightened": b.get("tightened", [])}
        if b.get("note"): rec["note"] = b["note"]
        if ok: rec["survived"] = True
        with open("/verif/seeded/LOG.jsonl", "a") as f: f.write(json.dumps(rec) + "\n")
copy_all()
