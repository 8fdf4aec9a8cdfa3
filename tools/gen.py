#!/usr/bin/env python3
"""Regenerates properties.jsonl, MANIFEST.json and the property table in DESIGN.md from props.py."""
import json, os, re, sys
here = os.path.dirname(os.path.abspath(__file__)); root = os.path.dirname(here)
sys.path.insert(0, here)
from props import P
with open(f"{root}/properties.jsonl", "w") as f:
    for p in P:
        f.write(json.dumps({k: p[k] for k in ("id","title","statement","quantifier","why_tests_cant","anchors")}, ensure_ascii=False) + "\n")
claims = []
for p in P:
    st = p["status"]
    if st == "planned": st = "partial"
    claims.append({"property": p["id"], "status": st, "theorems": p["theorems"], "note": p["note"] or ("no theorem yet" if not p["theorems"] else "")})
json.dump({"claims": claims}, open(f"{root}/MANIFEST.json", "w"), indent=1, ensure_ascii=False)
tab = "\n".join(f"- **{p['id']} {p['title']}** ({'planned' if p['status']=='planned' else p['status']}). {p['design'][0].upper()+p['design'][1:]}." + (f" {p['note']}" if p['note'] else "") for p in P)
d = f"{root}/DESIGN.md"
s = open(d).read()
s = re.sub(r"(<!-- props -->\n).*?(\n<!-- /props -->)", lambda m: m.group(1) + tab + m.group(2), s, flags=re.S)
open(d, "w").write(s)
# sanity: every theorem named in the manifest exists in the sources
src = ""
for dp, _, fs in os.walk(f"{root}/lean/Verif"):
    for fn in fs:
        if fn.endswith(".lean"): src += open(os.path.join(dp, fn)).read()
for p in P:
    for t in p["theorems"]:
        if not re.search(r"theorem\s+" + re.escape(t.split(".")[-1]) + r"\b", src):
            print("MISSING theorem", p["id"], t)
    if p["status"] in ("proved",) and not p["theorems"]: print("no theorem for", p["id"])
from collections import Counter
print(Counter(p["status"] for p in P))
mods = []
for dp, _, fs in os.walk(f"{root}/lean/Verif"):
    for fn in fs:
        if fn.endswith(".lean"):
            mods.append(os.path.relpath(os.path.join(dp, fn), f"{root}/lean")[:-5].replace("/", "."))
open(f"{root}/lean/Verif.lean", "w").write("".join(f"import {m}\n" for m in sorted(mods)))
