#!/usr/bin/env python3
"""Generate mechanical edits of the model and record which theorems notice.

usage: automutate.py list SEED PER_DEF        > MUTANTS.json   (edits of /verif/lean/Verif/Model)
       automutate.py run MUTANTS.json SCRATCH LOG.jsonl
SCRATCH is a copy of /verif/lean with its build directory and with SCRATCH/../backup a copy of that build directory."""
import json, os, random, re, subprocess, sys, glob, shutil

ROOT = "/verif/lean"
DECL = re.compile(r"^(?:@\[[^\]]*\]\s*)?(?:(?:private|noncomputable|protected|open Classical in)\s+)*(def|abbrev|instance|structure|inductive|theorem|lemma|example|section|end|namespace|variable|open|set_option|import|deriving)\b\s*([^\s(:{\[]*)", re.M)

def blank_comments(s):
    out = list(s); i = 0; depth = 0
    while i < len(s):
        if s.startswith("/-", i): depth += 1; out[i] = out[i+1] = " "; i += 2; continue
        if depth and s.startswith("-/", i): depth -= 1; out[i] = out[i+1] = " "; i += 2; continue
        if depth and s[i] != "\n": out[i] = " "
        i += 1
    t = "".join(out)
    return re.sub(r"--[^\n]*", lambda m: " " * len(m.group(0)), t)

def defs(s):
    """(name, start of body, end)"""
    c = blank_comments(s)
    starts = [(m.start(), m.group(1), m.group(2)) for m in DECL.finditer(c)]
    starts.append((len(c), "end", ""))
    for (a, kind, name), (b, _, _) in zip(starts, starts[1:]):
        if kind not in ("def", "abbrev"): continue
        seg = c[a:b]
        m = re.search(r":=|\n\s*\|", seg)
        if not m: continue
        yield name, a + m.end(), b, c

RULES = [
    ("+ to -", r"(?<![+'\w]) \+ (?!\+)", " - "),
    ("- to +", r"(?<=[\w)\]]) - ", " + "),
    ("* to +", r" \* ", " + "),
    ("/ to *", r" / ", " * "),
    ("< to ≤", r" < ", " ≤ "), ("≤ to <", r" ≤ ", " < "), ("> to ≥", r" > ", " ≥ "), ("≥ to >", r" ≥ ", " > "),
    ("= to ≠", r"(?<![:=<>!]) = (?!>)", " ≠ "), ("≠ to =", r" ≠ ", " = "),
    ("== to !=", r" == ", " != "), ("!= to ==", r" != ", " == "),
    ("true to false", r"\btrue\b", "false"), ("false to true", r"\bfalse\b", "true"),
    ("&& to ||", r"&&", "||"), ("|| to &&", r"\|\|", "&&"), ("∧ to ∨", "∧", "∨"), ("∨ to ∧", "∨", "∧"),
    ("! dropped", r"(?<=[ (])!(?=[\w(])", ""),
    ("0 to 1", r"(?<![\w.'])0(?![\w.'])", "1"), ("1 to 2", r"(?<![\w.'])1(?![\w.'])", "2"), ("2 to 3", r"(?<![\w.'])2(?![\w.'])", "3"),
    ("3 to 2", r"(?<![\w.'])3(?![\w.'])", "2"),
    ("unary minus dropped", r"(?<=[( ,])-(?=[\w(])", ""),
    (".1 to .2", r"(?<=\w)\.1\b", ".2"), (".2 to .1", r"(?<=\w)\.2\b", ".1"),
    ("reverse dropped", r"\.reverse\b", ""), ("tail dropped", r"\.tail\b", ""),
    ("take/drop", r"\.take\b", ".drop"), ("drop/take", r"\.drop\b", ".take"),
    ("any/all", r"\.any\b", ".all"), ("all/any", r"\.all\b", ".any"),
    ("takeWhile/dropWhile", r"\.takeWhile\b", ".dropWhile"), ("dropWhile/takeWhile", r"\.dropWhile\b", ".takeWhile"),
    ("character changed", r"'[A-Za-z0-9_#,= ]'", "'¤'"),
    ("conj dropped", r"\.conj\b", ""), ("conj function dropped", r"\bconj (?=\(|\w)", "id "),
    ("cast of other", r"\bcos\b", "sin"), ("sin to cos", r"\bsin\b", "cos"),
    ("range n to range (n+1)", r"List\.range (\w+)", r"List.range (\1 + 1)"),
    ("range n to range (n-1)", r"List\.range (\w+)", r"List.range (\1 - 1)"),
    ("appended list dropped", r"\+\+ \[([^\[\]]*)\]", ""),
]
SWAP = re.compile(r"(?<![\w.'])([A-Za-z_][\w'.]*) ([a-z]\w{0,3}'?) ([a-z]\w{0,3}'?)(?![\w'.])")
COND = re.compile(r"\bif (?!h\b)(?:(?!\bthen\b|\n).)* then")
KW = set("if then else let fun match with do in have show from by at for of some none true false and or not deriving where return".split())

def mutants():
    for f in sorted(glob.glob(ROOT + "/Verif/Model/*.lean")):
        s = open(f).read()
        for name, a, b, c in defs(s):
            for op, pat, new in RULES:
                if new is None: continue
                for m in re.compile(pat).finditer(c, a, b):
                    rep = m.expand(new) if "\\" in new else new
                    yield f, name, op, m.start(), m.end(), rep, s
            for m in SWAP.finditer(c, a, b):
                g, x, y = m.groups()
                if x in KW or y in KW or g in KW - {"then", "else", "if", "return", "some"} or x == y: continue
                yield f, name, "arguments exchanged", m.start(), m.end(), f"{g} {y} {x}", s
            for m in COND.finditer(c, a, b):
                t = m.group(0)
                yield f, name, "condition negated", m.start(), m.end(), "if ¬(" + t[3:-5] + ") then", s

def list_mutants(seed, per):
    rnd = random.Random(seed); by = {}
    for f, name, op, a, b, rep, s in mutants():
        if s[a:b] == rep: continue
        line = s.count("\n", 0, a) + 1
        ctx = s[s.rfind("\n", 0, a) + 1:s.find("\n", a)].strip()
        by.setdefault((f, name), []).append(dict(file=os.path.relpath(f, ROOT), definition=name, op=op, start=a, end=b, old=s[a:b], new=rep, line=line, context=ctx))
    out = []
    for k, v in by.items():
        rnd.shuffle(v); out += v[:per]
    json.dump(out, sys.stdout, ensure_ascii=False, indent=0)
    print(len(out), "of", sum(map(len, by.values())), "defs", len(by), file=sys.stderr)

def importers(scratch):
    imp = {}
    for f in glob.glob(scratch + "/Verif/**/*.lean", recursive=True):
        mod = os.path.relpath(f, scratch)[:-5].replace("/", ".")
        imp[mod] = [l.split()[1] for l in open(f) if l.startswith("import Verif")]
    return imp

def run(muts, scratch, log):
    imp = importers(scratch)
    closure = {}
    def clo(m):
        if m not in closure:
            closure[m] = set()
            r = set(imp.get(m, []))
            for x in list(r): r |= clo(x)
            closure[m] = r
        return closure[m]
    for m in imp: clo(m)
    done = set()
    if os.path.exists(log):
        for l in open(log):
            r = json.loads(l); done.add((r["file"], r["definition"], r["op"], r["start"], r["old"]))
    decl = re.compile(r"^(?:@\[[^\]]*\]\s*)?(?:private\s+|noncomputable\s+|protected\s+)*(theorem|lemma|def|example|instance|structure|inductive|abbrev)\s*(\S*)")
    def enclosing(path, line):
        ls = open(os.path.join(scratch, path)).read().split("\n")
        for i in range(min(line, len(ls)) - 1, -1, -1):
            m = decl.match(ls[i])
            if m: return (m.group(2) or "example") if m.group(2) != ":" else "(example)"
        return "?"
    backup = os.path.join(os.path.dirname(scratch.rstrip("/")), "backup")
    for m in json.load(open(muts)):
        if (m["file"], m["definition"], m["op"], m["start"], m["old"]) in done: continue
        p = os.path.join(scratch, m["file"]); src = open(p).read()
        if src[m["start"]:m["end"]] != m["old"]:
            print("STALE", m["file"], m["definition"], flush=True); continue
        mod = m["file"][:-5].replace("/", ".")
        users = [x for x in imp if mod in clo(x)]
        name = mod.split(".")[-1]
        props = [x for x in users if ".Props." in x]
        props.sort(key=lambda x: (name not in x.split(".")[-1], mod not in imp[x], len(clo(x))))
        near = [x for x in props if name in x.split(".")[-1] or mod in imp[x]]
        rest = [x for x in props if x not in near]
        open(p, "w").write(src[:m["start"]] + m["new"] + src[m["end"]:])
        status, failed = "SURVIVED", []
        try:
            r = subprocess.run(["lake", "build", mod], cwd=scratch, capture_output=True, text=True, timeout=600)
            if r.returncode != 0: status = "stillborn"
            else:
                for group in [[x] for x in near] + ([rest] if rest else []):
                    r = subprocess.run(["lake", "build"] + group, cwd=scratch, capture_output=True, text=True, timeout=2400)
                    if r.returncode != 0:
                        status = "killed"
                        for f, ln in re.findall(r"error: (Verif/\S+\.lean):(\d+):\d+", r.stdout + r.stderr):
                            n = enclosing(f, int(ln))
                            if n not in failed: failed.append(n)
                        break
        except subprocess.TimeoutExpired: status = "timeout"
        finally:
            open(p, "w").write(src)
            subprocess.run(["rsync", "-a", "--delete", backup + "/", scratch + "/.lake/build/"] if shutil.which("rsync") else
                           ["python3", __file__, "restore", backup, scratch + "/.lake/build"])
        m["status"] = status; m["theorems_failed"] = failed
        with open(log, "a") as o: o.write(json.dumps(m, ensure_ascii=False) + "\n")
        print(status, m["file"], m["definition"], m["op"], "|", m["context"][:90], "|", failed[:3], flush=True)

def restore(src, dst):
    for d, ds, fs in os.walk(dst):
        rel = os.path.relpath(d, dst)
        for f in fs:
            a = os.path.join(src, rel, f); b = os.path.join(d, f)
            if not os.path.exists(a): os.remove(b); continue
            x, y = os.stat(a), os.stat(b)
            if x.st_size != y.st_size or int(x.st_mtime_ns) != int(y.st_mtime_ns): shutil.copy2(a, b)
    for d, ds, fs in os.walk(src):
        rel = os.path.relpath(d, src); os.makedirs(os.path.join(dst, rel), exist_ok=True)
        for f in fs:
            b = os.path.join(dst, rel, f)
            if not os.path.exists(b): shutil.copy2(os.path.join(d, f), b)

if sys.argv[1] == "list": list_mutants(int(sys.argv[2]), int(sys.argv[3]))
elif sys.argv[1] == "run": run(*sys.argv[2:5])
elif sys.argv[1] == "restore": restore(*sys.argv[2:4])
