#!/usr/bin/env python3
"""Rewrite the property table of DESIGN.md from MANIFEST.json and tools/how.tsv."""
import json, os, re
R = os.path.dirname(os.path.dirname(os.path.abspath(__file__)))
man = {c["property"]: c for c in json.load(open(R + "/MANIFEST.json"))["claims"]}
props = [json.loads(l) for l in open(R + "/properties.jsonl")]
how = dict(l.rstrip("\n").split("\t", 1) for l in open(R + "/tools/how.tsv") if "\t" in l)
rows = ["| id | property | status | model and proof | theorems |", "|----|----------|--------|-----------------|----------|"]
for p in sorted(props, key=lambda p: int(p["id"][1:])):
    c = man[p["id"]]
    th = ", ".join("`%s`" % t.removeprefix("Verif.") for t in c["theorems"])
    rows.append("| %s | %s | %s | %s | %s |" % (p["id"], p["title"], c["status"], how.get(p["id"], c["note"]), th))
d = open(R + "/DESIGN.md").read()
d = re.sub(r"(<!-- table -->\n).*?(\n<!-- end -->)", lambda m: m.group(1) + "\n".join(rows) + m.group(2), d, flags=re.S)
open(R + "/DESIGN.md", "w").write(d)
