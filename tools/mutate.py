#!/usr/bin/env python3
"""Mutation testing. usage: mutate.py FILE.json [--dry] [--first]
FILE.json: list of {"file": "Model/Stack.lean", "definition": "...", "old": "...", "new": "...", "claim": "..."}.
Each edit is applied to a scratch copy in /tmp/mut of the last commit (never of the working tree), the project is rebuilt there and the failing declarations are printed;
one line per attempt is appended to seeded/LOG.jsonl. With --first a build ends at the first module that fails, the modules that import the edited one are built first, and edits that survive are
printed but not logged: they have to be looked at."""
import glob, json, os, re, shutil, signal, subprocess, sys
root = os.path.dirname(os.path.dirname(os.path.abspath(__file__)))
scratch = "/tmp/mut"
dry = "--dry" in sys.argv
first = "--first" in sys.argv

def build(targets):
    """output of the build, ended at the first error with --first"""
    p = subprocess.Popen(["timeout", "1800", "lake", "build"] + targets, cwd=scratch, stdout=subprocess.PIPE, stderr=subprocess.STDOUT, text=True, start_new_session=True)
    out = ""
    for line in p.stdout:
        out += line
        if first and line.startswith("error: Lean exited"):
            os.killpg(p.pid, signal.SIGTERM)
            break
    p.wait()
    return out

def importers(file):
    mod = "Verif." + file[:-5].replace("/", ".")
    return sorted("+Verif." + os.path.relpath(g, f"{scratch}/Verif")[:-5].replace("/", ".") for g in glob.glob(f"{scratch}/Verif/*/*.lean") if re.search(rf"^import {re.escape(mod)}$", open(g).read(), re.M))

muts = json.load(open(sys.argv[1]))
base = "/tmp/mutbase"
subprocess.run(f"rm -rf {base} && mkdir {base} && git -C {root} archive HEAD lean | tar x -C {base} --strip-components=1 && cp -a {root}/lean/.lake {base}/", shell=True, check=True)
if subprocess.run(["timeout", "3600", "lake", "build"], cwd=base, capture_output=True).returncode:
    sys.exit("the unchanged project does not build")
for m in muts:
    subprocess.run(f"rm -rf {scratch} && cp -a {base} {scratch}", shell=True, check=True)
    p = f"{scratch}/Verif/{m['file']}"
    s = open(p).read()
    if s.count(m["old"]) != 1:
        print("!! pattern occurs", s.count(m["old"]), "times:", m["old"]); continue
    open(p, "w").write(s.replace(m["old"], m["new"]))
    out = build(importers(m["file"])) if first else ""
    if "error: Verif" not in out: out = build([])
    failed = []
    modelerr = False
    for f, ln in re.findall(r"^error: (Verif/[\w/]+\.lean):(\d+):", out, re.M):
        lines = open(f"{scratch}/{f}").read().split("\n")[: int(ln)]
        name = "?"
        for i, l in reversed(list(enumerate(lines))):
            g = re.match(r"^(?:@\[.*?\] *)?(?:private |protected |noncomputable )*(theorem|lemma|def|example|instance)\b\s*([^\s:({\[]*)", l)
            if g:
                name = g.group(2) if g.group(1) != "example" else f"example {f[6:-5]}:{i+1}"
                if f.startswith("Verif/Model/") and g.group(1) in ("def", "instance"): modelerr = True
                break
        if name not in failed: failed.append(name)
    # property modules that could not be built because of the failures
    blocked = sorted(set(re.findall(r"^- (Verif\.[\w.]+)$", out, re.M)))
    print(("MODEL DOES NOT COMPILE " if modelerr else "") + f"{m['definition']}: {m['old']!r} -> {m['new']!r}\n   failed: {failed}", flush=True)
    if modelerr:
        if not first: print(out[-1500:])
        continue
    if not dry and (failed or not first):
        with open(f"{root}/seeded/LOG.jsonl", "a") as f:
            f.write(json.dumps({"definition": m["definition"], "file": m["file"], "edit": f"{m['old']}  =>  {m['new']}", "claim": m["claim"],
              "failed": failed, "tightened": m.get("tightened", []), **({"note": m["note"]} if "note" in m else {})}, ensure_ascii=False) + "\n")
