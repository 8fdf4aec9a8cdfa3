#!/usr/bin/env python3
"""Writes the axioms that each theorem of MANIFEST.json depends on into DESIGN.md. Needs a finished `lake build`."""
import json, os, re, subprocess, tempfile
root = os.path.dirname(os.path.dirname(os.path.abspath(__file__)))
claims = json.load(open(f"{root}/MANIFEST.json"))["claims"]
with tempfile.TemporaryDirectory() as d:
    f = f"{d}/Ax.lean"
    open(f, "w").write("import Verif\n" + "".join(f"#print axioms {t}\n" for c in claims for t in c["theorems"]))
    out = subprocess.run(["lake", "env", "lean", f], cwd=f"{root}/lean", capture_output=True, text=True).stdout
ax = {}
for m in re.finditer(r"'([^']+)' (?:depends on axioms: \[([^\]]*)\]|does not depend on any axioms)", out):
    ax[m.group(1)] = frozenset(x.strip() for x in (m.group(2) or "").split(",") if x.strip())
groups = {}
for c in claims:
    for t in c["theorems"]:
        groups.setdefault(ax[t], []).append(t.removeprefix("DSP."))
full = frozenset(["propext", "Classical.choice", "Quot.sound"])
assert all(g <= full for g in groups), groups.keys()
text = f"Of the {sum(map(len, groups.values()))} theorems named in `MANIFEST.json`\n\n"
for g in sorted(groups, key=lambda g: -len(g)):
    names = ", ".join(f"`{x}`" for x in sorted(["propext", "Classical.choice", "Quot.sound"], key=lambda x: ["propext", "Classical.choice", "Quot.sound"].index(x)) if x in g) or "no axioms"
    text += f"- {len(groups[g])} depend on {names}" + (" (all that are not listed below);\n" if g == full else ": " + ", ".join(f"`{t}`" for t in groups[g]) + ";\n")
text = text.rstrip(";\n") + "."
d = f"{root}/DESIGN.md"
s = open(d).read()
s = re.sub(r"(<!-- axioms -->\n).*?(\n<!-- /axioms -->)", lambda m: m.group(1) + text + m.group(2), s, flags=re.S)
open(d, "w").write(s)
