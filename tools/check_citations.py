#!/usr/bin/env python3
"""Every definition under lean/Verif/Model must carry a comment citing a file of /repo, and the cited lines must exist.
usage: tools/check_citations.py [/repo]"""
import glob, os, re, sys
repo = sys.argv[1] if len(sys.argv) > 1 else "/repo"
files = {}
for d, _, fs in os.walk(repo):
    if "/.git" in d: continue
    for f in fs:
        p = os.path.join(d, f)
        files.setdefault(f, []).append(p)
def lookup(cite):
    base = os.path.basename(cite)
    return [p for p in files.get(base, []) if p.endswith("/" + cite) or cite == base or p.endswith(cite)]
DEF = re.compile(r"^(?:@\[[^\]]*\]\s*)?(?:(?:private|noncomputable|protected)\s+)*(def|abbrev|structure|inductive)\s+(\S+)", re.M)
bad = 0; n = 0; uncited = []
for f in sorted(glob.glob("lean/Verif/Model/*.lean")):
    s = open(f).read()
    head = re.search(r"/-!(.*?)-/", s, re.S)
    for m in DEF.finditer(s):
        n += 1
        before = s[:m.start()].rstrip()
        if not before.endswith("-/"):
            if before.endswith("in"): before = before[:before.rfind("-/")+2]
            else:
                print(f"{f}: {m.group(2)}: no comment"); bad += 1; continue
        c = before[before.rfind("/-"):]
        cites = re.findall(r"([\w/.]+\.(?:hpp|cpp))(?::((?:\d+(?:-\d+)?(?:, (?=\d+(?:-\d+)?[^\w.]))?)*))?", c)
        if not cites: uncited.append((f, m.group(2), c[:100])); continue
        for name, lines in cites:
            ps = lookup(name)
            if not ps: print(f"{f}: {m.group(2)}: no file {name}"); bad += 1; continue
            nums = [int(x) for x in re.findall(r"\d+", lines or "")]
            if nums and all(max(nums) > len(open(p, errors='replace').read().split("\n")) for p in ps):
                print(f"{f}: {m.group(2)}: {name}:{lines} beyond the end"); bad += 1
print(n, "definitions,", bad, "problems,", len(uncited), "without a file name")
for u in uncited: print("  ", u)
