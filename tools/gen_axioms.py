#!/usr/bin/env python3
"""Rewrites the axiom table at the end of DESIGN.md from the output of deps.txt (argument)."""
import json, os, sys
here = os.path.dirname(os.path.dirname(os.path.abspath(__file__)))
path = os.path.join(here, "DESIGN.md")
s = open(path).read()
mark = "<!-- axioms -->\n"
s = s[:s.index(mark) + len(mark)]
groups = {}
for l in open(sys.argv[1]):
    d = json.loads(l)
    key = ", ".join(sorted(d["axioms"])) or "none"
    t = d["theorem"][len("Verif."):]
    g = groups.setdefault(key, [])
    if t not in g:
        g.append(t)
s += "| Axioms | Theorems |\n|---|---|\n"
for k in sorted(groups, key=lambda k: (k != "none", len(k))):
    s += "| %s | %s |\n" % (k, ", ".join("`%s`" % t for t in groups[k]))
open(path, "w").write(s)
