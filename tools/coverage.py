#!/usr/bin/env python3
"""Lines of /repo/include and /repo/src that no definition of the model cites (blank lines, braces, includes, comments and
preprocessor lines excluded). usage: tools/coverage.py [/repo]"""
import glob, os, re, sys
repo = sys.argv[1] if len(sys.argv) > 1 else "/repo"
src = [os.path.join(d, f) for top in ("include", "src") for d, _, fs in os.walk(os.path.join(repo, top)) for f in fs if f.endswith((".hpp", ".cpp"))]
cov = {p: set() for p in src}
CITE = re.compile(r"([\w/.]+\.(?:hpp|cpp))((?::|, |-|\d+| and )*)")
for f in glob.glob("lean/Verif/Model/*.lean"):
    s = open(f).read()
    for c in re.findall(r"/-[-!](.*?)-/", s, re.S):
        for m in re.finditer(r"([\w/.]+\.(?:hpp|cpp)):(\d+(?:-\d+)?(?:(?:,|, | and )\d+(?:-\d+)?(?![\w.]))*)", c):
            ps = [p for p in src if p.endswith("/" + m.group(1)) or (("/" in m.group(1)) and p.endswith(m.group(1)))]
            for a, b in re.findall(r"(\d+)(?:-(\d+))?", m.group(2)):
                for p in ps: cov[p].update(range(int(a), int(b or a) + 1))
tot = un = 0
for p in sorted(src):
    L = open(p, errors="replace").read().split("\n")
    miss = []
    for i, l in enumerate(L, 1):
        t = l.strip()
        if not t or re.fullmatch(r"[{}();,\s]*|namespace.*|using namespace.*|template.*|public:|private:|protected:|\};?", t) or t.startswith(("//", "#", "*", "/*")): continue
        tot += 1
        if i not in cov[p]: miss.append(i)
    un += len(miss)
    if miss:
        r = []; 
        for i in miss:
            if r and i == r[-1][1] + 1: r[-1][1] = i
            else: r.append([i, i])
        print(os.path.relpath(p, repo), len(miss), " ".join(f"{a}-{b}" if b > a else str(a) for a, b in r))
print("relevant lines", tot, "not cited", un)
