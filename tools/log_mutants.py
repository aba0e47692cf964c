#!/usr/bin/env python3
"""Turns results files of mutate.py into lines of seeded/LOG.jsonl.

usage: log_mutants.py <deps.jsonl> <notes.json> <results.jsonl>...

Mutants that do not elaborate are left out.  The claims a mutant breaks are the properties whose
manifest theorem is among the failed declarations or uses one of them (output of deps.txt).
notes.json maps "definition|after" to {"claim", "tightened", "note"} for mutants that survived.
"""
import json, os, sys
here = os.path.dirname(os.path.dirname(os.path.abspath(__file__)))
deps = [json.loads(l) for l in open(sys.argv[1])]
notes = json.load(open(sys.argv[2]))
titles = {}
for l in open(os.path.join(here, "properties.jsonl")):
    d = json.loads(l)
    titles[d["id"]] = d["title"]
out = os.path.join(here, "seeded", "LOG.jsonl")
seen = set()
if os.path.exists(out):
    for l in open(out):
        d = json.loads(l)
        seen.add((d["definition"], d["edit"], d["result"]))
n = 0
with open(out, "a") as f:
    for path in sys.argv[3:]:
        for l in open(path):
            r = json.loads(l)
            if r["result"] not in ("killed", "SURVIVED", "example-only", "timeout"):
                continue
            before, after = r.get("before", r["old"]), r.get("after", r["new"])
            edit = "%s  =>  %s" % (before, after)
            res = {"killed": "rejected", "SURVIVED": "survived", "example-only": "survived", "timeout": "timeout"}[r["result"]]
            if (r["definition"], edit, res) in seen:
                continue
            seen.add((r["definition"], edit, res))
            failed = [x for x in r.get("failed", []) if not x.startswith("example@")]
            fs = set(failed)
            hit = [d for d in deps if fs & set(d["uses"])]
            props = sorted({d["property"] for d in hit})
            note = notes.get("%s|%s" % (r["definition"], after), {})
            claim = note.get("claim") or r.get("claim") or "; ".join("%s %s" % (p, titles[p]) for p in props[:4])
            f.write(json.dumps({
                "definition": r["definition"], "file": r["file"], "edit": edit, "claim": claim,
                "properties": props, "result": res, "failed": failed,
                "failed_manifest": sorted({d["theorem"] for d in hit}),
                "tightened": note.get("tightened", []), "note": note.get("note", "")}, ensure_ascii=False) + "\n")
            n += 1
print(n, "lines added")
