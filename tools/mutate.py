#!/usr/bin/env python3
"""Systematic mutation of the model files, in a scratch copy of /verif/lean.

usage: mutate.py <area> [start [end]]     generated mutants of Verif/<area>/Model.lean
       mutate.py --sample <n> <area>      n of them, chosen by a fixed seed
       mutate.py --swaps <files>          names taken for one another, forgotten updates
       mutate.py --stmts <files>          statements left out, repeated or exchanged, conditions fixed, operands left out
       mutate.py --list <file.json>       hand-written mutants

The examples are removed from the scratch copy first, so that only a theorem can reject a mutant.

A hand-written mutant is {"file","definition","old","new","claim"}.  Every attempt is appended
to the results file (default /tmp/mut/results.jsonl) as one JSON line.
"""
import json, os, random, re, shutil, subprocess, sys, time

SRC = os.environ.get("MUT_SRC", "/verif/lean")
DST = os.environ.get("MUT_DIR", "/tmp/mut/lean")
OUT = os.environ.get("MUT_OUT", "/tmp/mut/results.jsonl")

DECL = re.compile(r"^(?:@\[.*?\]\s*)?(?:private\s+|protected\s+)?(theorem|lemma|def|example|instance|structure|inductive|abbrev)\b\s*([^\s:({\[]*)")


def decls(text):
    out, stack = [], []
    for i, line in enumerate(text.split("\n"), 1):
        m = re.match(r"^namespace\s+(\S+)", line)
        if m:
            stack.append(m.group(1))
        m = re.match(r"^end\s+(\S+)", line)
        if m and stack:
            stack.pop()
        m = DECL.match(line)
        if m:
            out.append((i, m.group(1), ".".join(stack + [m.group(2)]) if m.group(2) else "example@%d" % i))
    return out


def enclosing(path, line):
    ds = decls(open(path).read())
    best = ("?", "?")
    for (i, k, n) in ds:
        if i <= line:
            best = (k, n)
    return best


def sync():
    os.makedirs(DST, exist_ok=True)
    shutil.rmtree(os.path.join(DST, "Verif"), ignore_errors=True)
    shutil.copytree(os.path.join(SRC, "Verif"), os.path.join(DST, "Verif"))
    for f in os.listdir(SRC):
        if os.path.isfile(os.path.join(SRC, f)):
            shutil.copy2(os.path.join(SRC, f), DST)


    for d, _, fs in os.walk(os.path.join(DST, "Verif")):
        for f in fs:
            p = os.path.join(d, f)
            t = open(p).read()
            u = re.sub(r"(?ms)^(?:/--(?:(?!-/).)*-/\n)?example\b.*?(?=^\S|\Z)", "", t)
            if u != t:
                open(p, "w").write(u)


def build(target):
    p = subprocess.run(["lake", "build", target], cwd=DST, capture_output=True, text=True, timeout=1500)
    return p.returncode, p.stdout + p.stderr


def failures(log):
    res = []
    for m in re.finditer(r"error: (?:\./)?(Verif\S*?\.lean):(\d+):\d+", log):
        k, n = enclosing(os.path.join(DST, m.group(1)), int(m.group(2)))
        e = (m.group(1), k, n)
        if e not in res:
            res.append(e)
    return res


def run_one(m):
    path = os.path.join(DST, m["file"])
    text = open(path).read()
    if "offset" in m:
        o = m["offset"]
        assert text[o:o + len(m["old"])] == m["old"]
        new = text[:o] + m["new"] + text[o + len(m["old"]):]
    else:
        if text.count(m["old"]) != 1:
            return {**m, "result": "bad-mutant", "count": text.count(m["old"])}
        new = text.replace(m["old"], m["new"])
    open(path, "w").write(new)
    t0 = time.time()
    try:
        area = m["file"].split("/")[1]
        first = {"Io": "Verif.Acc.Props", "Data": "Verif.Audio.Props"}.get(area, "Verif.%s.Props" % area)
        if not os.path.exists(os.path.join(DST, first.replace(".", "/") + ".lean")):
            first = m["file"][:-5].replace("/", ".")
        rc, log = build(first)
        if rc == 0:
            rc, log = build("Verif")
    except subprocess.TimeoutExpired:
        rc, log = 1, "timeout"
    fs = failures(log)
    m = {**m, "seconds": round(time.time() - t0)}
    open(path, "w").write(text)
    own = [f for f in fs if f[0] == m["file"] and f[1] in ("def", "structure", "inductive", "abbrev", "instance")]
    if rc == 0:
        r = "SURVIVED"
    elif own:
        r = "invalid"
    elif log == "timeout":
        r = "timeout"
    elif fs and all(f[1] == "example" for f in fs):
        r = "example-only"
    elif fs:
        r = "killed"
    else:
        r = "error"
        m = {**m, "log": log[-600:]}
    return {**m, "result": r, "failed": [f[2] for f in fs if f[1] != "example"],
            "examples": [f[2] for f in fs if f[1] == "example"]}


RULES = [
    (r" < ", [" ≤ "]), (r" ≤ ", [" < "]), (r" > ", [" ≥ "]), (r" ≥ ", [" > "]),
    (r" \+ 1\b", [" + 2", ""]), (r" - 1\b", ["", " - 2"]),
    (r" \+ (?!1\b)", [" - "]), (r" \* ", [" + "]),
    (r" - (?!1\b)", [" + "]),
    (r"\btrue\b", ["false"]), (r"\bfalse\b", ["true"]),
    (r" && ", [" || "]), (r" \|\| ", [" && "]), (r" == ", [" != "]), (r" != ", [" == "]),
    (r" = ", [" ≠ "]), (r" ∧ ", [" ∨ "]), (r" ∨ ", [" ∧ "]),
    (r" <<< ", [" >>> "]), (r" >>> ", [" <<< "]), (r" % ", [" / "]), (r" / ", [" % "]),
    (r" \|\|\| ", [" &&& "]), (r" &&& ", [" ||| "]),
    (r"\bif ", ["if ¬ "]),
    (r"\bfromLe\b", ["fromBe"]), (r"\bfromBe\b", ["fromLe"]), (r"\btoLe\b", ["toBe"]), (r"\btoBe\b", ["toLe"]),
    (r"\bmin\b", ["max"]), (r"\bmax\b", ["min"]),
    (r"\btake\b", ["drop"]), (r"\bdrop\b", ["take"]),
    (r"(?<=[ ({\[])\d+(?=[ ,)\]}]|$)", None),   # numeric literal
    (r"(?<=[ (])([a-zA-Z_.]+) \+\+ ([a-zA-Z_.]+)(?=[ )]|$)", "swap"),
    (r"\bsome ([a-z]\w*)(?=[ ),]|$)", ["none"]),
    (r", (\w+) := ([^,{}\n]+?)(?= \}|,)", "dropfield"),
    (r"\{ (\w+) with (\w+) := ([^,{}\n]+?), ", "dropfirst"),
]


def generate(rel):
    text = open(os.path.join(DST, rel)).read()
    # blank comments and strings are kept; comments must not be mutated
    mask = [True] * len(text)
    for m in re.finditer(r"/-.*?-/|--[^\n]*", text, re.S):
        for i in range(m.start(), m.end()):
            mask[i] = False
    ds = decls(text)
    starts = {}
    pos, offs = 0, [0]
    for line in text.split("\n"):
        pos += len(line) + 1
        offs.append(pos)
    muts = []

    def lineof(o):
        lo, hi = 0, len(offs)
        while hi - lo > 1:
            mid = (lo + hi) // 2
            if offs[mid] <= o:
                lo = mid
            else:
                hi = mid
        return lo + 1

    def where(o):
        l = lineof(o)
        b = None
        for d in ds:
            if d[0] <= l:
                b = d
        return l, b

    for (rx, reps) in RULES:
        for m in re.finditer(rx, text, re.M):
            if not mask[m.start()] or not mask[m.end() - 1]:
                continue
            l, d = where(m.start())
            if d is None or d[1] not in ("def",):
                continue
            old = m.group(0)
            if reps is None:
                n = int(old)
                news = [str(n + 1)] + ([str(n - 1)] if n > 0 else [])
            elif reps == "swap":
                news = ["%s ++ %s" % (m.group(2), m.group(1))]
            elif reps == "dropfield":
                news = [""]
            elif reps == "dropfirst":
                news = ["{ %s with " % m.group(1)]
            else:
                news = reps
            for new in news:
                line = text[offs[l - 1]:offs[l] - 1]
                c = m.start() - offs[l - 1]
                muts.append({"file": rel, "definition": d[2], "offset": m.start(), "old": old, "new": new,
                             "line": l, "before": line.strip(), "after": (line[:c] + new + line[c + len(old):]).strip()})
    # swap two adjacent match arms' results / drop an arm is done by hand
    muts.sort(key=lambda m: m["offset"])
    return muts


def alternatives():
    """name -> names it may be mistaken for: fields of one structure and constructors of one type alike in type"""
    alt = {}
    for d, _, fs in os.walk(os.path.join(DST, "Verif")):
        for f in fs:
            text = re.sub(r"/-.*?-/|--[^\n]*", "", open(os.path.join(d, f)).read(), flags=re.S)
            for m in re.finditer(r"^structure .*?where\n((?:[ ]+.*\n)+)", text, re.M):
                groups = {}
                for n in re.finditer(r"^\s+((?:[\w«»]+ )+): (.+?)(?: := .*)?$", m.group(1), re.M):
                    groups.setdefault(n.group(2), []).extend(n.group(1).split())
                for g in groups.values():
                    for x in g:
                        alt.setdefault(x, set()).update(y for y in g if y != x)
            for m in re.finditer(r"^inductive .*\n((?:[ ]+\|.*\n)+)", text, re.M):
                groups = {}
                for n in re.finditer(r"\| (\w+)((?: \([^)]*\))*)(?=[ \n])", m.group(1)):
                    key = re.sub(r"\w+ :", ":", n.group(2))
                    groups.setdefault(key, []).append(n.group(1))
                for g in groups.values():
                    for i, x in enumerate(g):
                        if len(g) > 1:
                            alt.setdefault(x, set()).add(g[(i + 1) % len(g)])
    return alt


def generate_swaps(rel):
    """names taken for one another, and forgotten updates"""
    text = open(os.path.join(DST, rel)).read()
    alt = alternatives()
    hidden = [(m.start(), m.end()) for m in re.finditer(r"/-.*?-/|--[^\n]*|\"[^\"]*\"", text, re.S)]
    ds = decls(text)
    lines = text.split("\n")
    offs = [0]
    for line in lines:
        offs.append(offs[-1] + len(line) + 1)
    muts = []
    for k, (l0, kind, name) in enumerate(ds):
        if kind != "def":
            continue
        l1 = ds[k + 1][0] - 1 if k + 1 < len(ds) else len(lines)
        lo, hi = offs[l0 - 1], offs[l1]
        body = text[lo:hi]
        head = re.match(r".*?(?::=|\n\s+\|)", body, re.S)
        if not head:
            continue
        args = {}
        for m in re.finditer(r"[({]((?:[\w«»']+ )+): ([^()]*)[)}]", head.group(0)):
            args.setdefault(m.group(2), []).extend(m.group(1).split())
        local = {x: [y for y in g if y != x] for g in args.values() for x in g}

        def add(o, old, new):
            if any(a <= o < b for a, b in hidden):
                return
            l = l0
            while offs[l] <= o:
                l += 1
            line = lines[l - 1]
            c = o - offs[l - 1]
            muts.append({"file": rel, "definition": name, "offset": o, "old": old, "new": new, "line": l,
                         "before": line.strip(), "after": (line[:c] + new + line[c + len(old.rstrip("\n")):]).strip()})

        start = lo + head.end()
        for m in re.compile(r"(?<![\w.«'])[a-zA-Z_]\w*'?(?![\w»'.])").finditer(text, start, hi):
            for y in local.get(m.group(0), []):
                add(m.start(), m.group(0), y)
        for m in re.compile(r"(?<=\.)(«?\w+»?)(?!\w)").finditer(text, start, hi):
            x = m.group(1)
            if x in ("1", "2"):
                add(m.start(), x, "21"[int(x) - 1])
            for y in sorted(alt.get(x, alt.get("«%s»" % x, ()))):
                if y in ("«end»",):
                    y = "end"
                add(m.start(), x, y)
        for m in re.compile(r"^[ ]+let (?:\((?:_|\w+), )?(\w+)\)? (?:←|:=) [^\n]*\b\1\b[^\n]*\n", re.M).finditer(text, start, hi):
            add(m.start(), m.group(0), "")
    muts.sort(key=lambda m: m["offset"])
    return muts


def generate_stmts(rel):
    """statements left out, repeated or exchanged, conditions fixed, operands left out, results of arms exchanged"""
    text = open(os.path.join(DST, rel)).read()
    hidden = [(m.start(), m.end()) for m in re.finditer(r"/-.*?-/|--[^\n]*|\"[^\"]*\"", text, re.S)]
    ds = decls(text)
    lines = text.split("\n")
    offs = [0]
    for line in lines:
        offs.append(offs[-1] + len(line) + 1)
    muts = []
    STMT = re.compile(r"^ +(?:let|for|if|match|return|\S+ ←)")

    def add(name, l, o, old, new, before, after):
        if not any(a <= o < b for a, b in hidden):
            muts.append({"file": rel, "definition": name, "offset": o, "old": old, "new": new, "line": l,
                         "before": before, "after": after})

    for k, (l0, kind, name) in enumerate(ds):
        if kind != "def":
            continue
        l1 = ds[k + 1][0] - 1 if k + 1 < len(ds) else len(lines)
        for l in range(l0, l1 + 1):
            line, o = lines[l - 1], offs[l - 1]
            ind = len(line) - len(line.lstrip())
            def inline(a, b, new):
                add(name, l, o + a, line[a:b], new, line.strip(), (line[:a] + new + line[b:]).strip())
            if re.match(r"^ +let .*(←|:=)", line) and not line.rstrip().endswith(("do", "←", ":=")):
                add(name, l, o, line + "\n", "", line.strip(), "(left out) " + line.strip())
                lhs, _, rhs = line.partition("←")
                again = rhs
                for b in set(re.findall(r"\w+", lhs.replace("let", ""))):
                    again = re.sub(r"\b[\w.]+\." + b + r"\b", b, again)
                if rhs and set(re.findall(r"\w+", lhs.replace("let", ""))) & set(re.findall(r"(?<![.\w])\w+", again)):
                    add(name, l, o, line + "\n", line + "\n" + lhs + "←" + again + "\n", line.strip(), "(twice) " + line.strip())
                nxt = lines[l] if l < len(lines) else ""
                if l + 1 <= l1 and re.match(r"^ +let .*(←|:=)", nxt) and len(nxt) - len(nxt.lstrip()) == ind:
                    add(name, l, o, line + "\n" + nxt + "\n", nxt + "\n" + line + "\n", line.strip(),
                        "(exchanged with the next) " + line.strip())
            for m in re.finditer(r"\bif (?:h\w* : )?(.+?) then\b", line):
                inline(m.start(1), m.end(1), "True")
                inline(m.start(1), m.end(1), "False")
            for m in re.finditer(r"(?<=[ (\[])([\w.]+|\([^()]*\)) (\+|-|\*|\|\|\||&&&|\+\+|<<<|>>>|%|/|&&|\|\||∧|∨) ([\w.]+|\([^()]*\))(?=[ ),\]]|$)", line):
                inline(m.start(), m.end(), m.group(1))
                inline(m.start(), m.end(), m.group(3))
            m1 = re.match(r"^( *)\| (.+?) => (.+)$", line)
            m2 = re.match(r"^( *)\| (.+?) => (.+)$", lines[l]) if l < l1 else None
            if m1 and m2 and m1.group(1) == m2.group(1) and m1.group(3) != m2.group(3):
                new = "%s| %s => %s\n%s| %s => %s\n" % (m1.group(1), m1.group(2), m2.group(3), m1.group(1), m2.group(2), m1.group(3))
                add(name, l, o, line + "\n" + lines[l] + "\n", new, line.strip(), "(result of the next arm) " + line.strip())
    muts.sort(key=lambda m: m["offset"])
    return muts


def main():
    sync()
    if sys.argv[1] == "--list":
        muts = json.load(open(sys.argv[2]))
    elif sys.argv[1] == "--swaps":
        muts = sum((generate_swaps(rel) for rel in sys.argv[2].split(",")), [])
    elif sys.argv[1] == "--stmts":
        muts = sum((generate_stmts(rel) for rel in sys.argv[2].split(",")), [])
        if len(sys.argv) > 3:
            muts = sorted(random.Random(1).sample(muts, min(int(sys.argv[3]), len(muts))), key=lambda m: (m["file"], m["offset"]))
    elif sys.argv[1] == "--sample":
        muts = []
        for rel in sys.argv[3].split(","):
            muts += generate(rel if rel.endswith(".lean") else "Verif/%s/Model.lean" % rel)
        muts = random.Random(1).sample(muts, min(int(sys.argv[2]), len(muts)))
        muts.sort(key=lambda m: (m["file"], m["offset"]))
    else:
        muts = []
        for rel in sys.argv[1].split(","):
            muts += generate(rel if rel.endswith(".lean") else "Verif/%s/Model.lean" % rel)
        if len(sys.argv) > 2:
            muts = muts[int(sys.argv[2]):int(sys.argv[3]) if len(sys.argv) > 3 else None]
    # definitions of sample data, and edits tried already
    if os.environ.get("MUT_SKIP"):
        muts = [m for m in muts if not re.search(os.environ["MUT_SKIP"], m["definition"])]
    if os.path.exists(OUT):
        tried = {(r["file"], r["definition"], r["before"], r["after"]) for r in map(json.loads, open(OUT)) if "before" in r}
        muts = [m for m in muts if (m["file"], m["definition"], m.get("before"), m.get("after")) not in tried]
    print(len(muts), "mutants", flush=True)
    for m in muts:
        r = run_one(m)
        with open(OUT, "a") as f:
            f.write(json.dumps(r, ensure_ascii=False) + "\n")
        if r["result"] not in ("killed", "invalid"):
            print(r["result"], r["definition"], "L%s" % r.get("line", ""), "|", r.get("before", r["old"]), "=>", r.get("after", r["new"]), flush=True)
    print("done", flush=True)


if __name__ == "__main__":
    main()
