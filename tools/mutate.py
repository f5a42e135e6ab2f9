#!/usr/bin/env python3
"""Apply seeded edits to a scratch copy of the Lean project and record what fails.

usage: mutate.py MUTATIONS.json SCRATCH LOG.jsonl
SCRATCH is a copy of /verif/lean (with its build directory, so that builds are incremental)."""
import json, re, subprocess, sys, os, shutil

muts, scratch, log = sys.argv[1:4]
done = set()
if os.path.exists(log):
    for l in open(log):
        r = json.loads(l); done.add((r["definition"], r["edit"]))
decl = re.compile(r"^(?:@\[[^\]]*\]\s*)?(?:private\s+|noncomputable\s+|protected\s+)*(theorem|lemma|def|example|instance|structure|inductive|abbrev)\s*(\S*)")

def enclosing(path, line):
    ls = open(os.path.join(scratch, path)).read().split("\n")
    for i in range(min(line, len(ls)) - 1, -1, -1):
        m = decl.match(ls[i])
        if m:
            return (m.group(2) or "example"), m.group(1)
    return "?", "?"

for m in json.load(open(muts)):
    if (m["definition"], m["edit"]) in done:
        continue
    p = os.path.join(scratch, "Verif", m["file"])
    src = open(p).read()
    if src.count(m["old"]) != m.get("count", 1):
        print("BAD", m["definition"], src.count(m["old"]), flush=True); continue
    open(p, "w").write(src.replace(m["old"], m["new"]))
    try:
        try:
            # first only the modules named in the mutation; everything when these still build
            for targets in ([m["targets"]] if m.get("targets") else []) + [[]]:
                r = subprocess.run(["lake", "build"] + targets, cwd=scratch, capture_output=True, text=True, timeout=2400)
                out = r.stdout + r.stderr; code = r.returncode
                if code != 0: break
        except subprocess.TimeoutExpired:
            out, code = "", "timeout"
        failed, kinds = [], []
        for f, ln in re.findall(r"error: (Verif/\S+\.lean):(\d+):\d+", out):
            n, k = enclosing(f, int(ln))
            if n not in failed:
                failed.append(n); kinds.append(k)
        blocked = sorted(set(re.findall(r"^- (Verif\.\S+)", out, re.M)))
    finally:
        open(p, "w").write(src)
    rec = {"definition": m["definition"], "edit": m["edit"], "claim_broken": m["claim"], "theorems_failed": failed,
           "modules_failed": blocked, "theorems_tightened": m.get("tightened", [])}
    if code == 0: rec["survived"] = True
    if code == "timeout": rec["timeout"] = True
    with open(log, "a") as o: o.write(json.dumps(rec, ensure_ascii=False) + "\n")
    print(m["claim"], m["definition"], "SURVIVED" if code == 0 else failed, flush=True)
