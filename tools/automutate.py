#!/usr/bin/env python3
"""Mutation testing with generated edits. usage: automutate.py OUT.json [SEED [PER_DEFINITION]] > list of edits
Writes a list of edits in the format of mutate.py: one or more small edits (operator, comparison, constant, field, truth value) per definition in Verif/Model, chosen by a seeded generator.
Edits that do not type check are discarded by mutate.py. `mutate.py OUT.json --first` stops at the first failing declaration."""
import glob, json, os, random, re, sys
root = os.path.dirname(os.path.dirname(os.path.abspath(__file__)))
out = sys.argv[1]
rnd = random.Random(int(sys.argv[2]) if len(sys.argv) > 2 else 1)
per = int(sys.argv[3]) if len(sys.argv) > 3 else 1
done = {(m["file"], m["edit"]) for m in map(json.loads, open(f"{root}/seeded/LOG.jsonl"))}
rules = [(r" \+ ", [" - "], "plus became minus"), (r" - ", [" + "], "minus became plus"), (r" \* ", [" + "], "product became sum"), (r" / ", [" * "], "quotient became product"),
    (r" < ", [" ≤ ", " > "], "other comparison"), (r" ≤ ", [" < "], "other comparison"), (r" > ", [" ≥ "], "other comparison"), (r" == ", [" != "], "equality negated"), (r" != ", [" == "], "inequality negated"),
    (r" = ", None, ""), (r" && ", [" || "], "and became or"), (r" \|\| ", [" && "], "or became and"), (r"\btrue\b", ["false"], "truth value"), (r"\bfalse\b", ["true"], "truth value"),
    (r"(?<![\w.^])\d+(?![\w.])", "number", "constant off by one"), (r"\.re\b", [".im"], "wrong part"), (r"\.im\b", [".re"], "wrong part"), (r"\bmax\b", ["min"], "wrong extremum"), (r"\bmin\b", ["max"], "wrong extremum"),
    (r"\bcos\b", ["sin"], "wrong function"), (r"\bsin\b", ["cos"], "wrong function"), (r"(?<=[( ])-(?=[\w(])", [""], "sign lost")]
res = []
for f in sorted(glob.glob(f"{root}/lean/Verif/Model/*.lean")):
    s = open(f).read()
    name = "Model/" + os.path.basename(f)
    starts = [m for m in re.finditer(r"^(?:@\[.*?\] *)?(?:private |protected |noncomputable |partial )*def\s+([^\s:({\[]+)", s, re.M)]
    for m in starts:
        e = re.search(r"\n\n|\n(?=/--|end |section|variable|theorem|instance|structure)", s[m.end():])
        end = m.end() + (e.start() if e else len(s) - m.end())
        body = s[m.start():end]
        # the part behind the signature
        k = re.search(r":=|\n  \|", body)
        if not k: continue
        cands = []
        for pat, new, what in rules:
            if new is None: continue
            for g in re.finditer(pat, body[k.end():]):
                a, b = k.end() + g.start(), k.end() + g.end()
                line = body[body.rfind("\n", 0, a) + 1:a]
                if "--" in line: continue
                for t in ([str(int(g.group()) + 1)] if new == "number" else new):
                    cands.append((a, b, t, what))
        rnd.shuffle(cands)
        n = 0
        for a, b, t, what in cands:
            # the edit with enough context to be unique in the file
            for w in range(0, 400, 10):
                lo, hi = max(0, a - w), min(len(body), b + w)
                old = body[lo:hi]
                if s.count(old) == 1: break
            else: continue
            edit = old[:a - lo] + t + old[b - lo:]
            if (name, f"{old}  =>  {edit}") in done: continue
            res.append({"file": name, "definition": m.group(1), "old": old, "new": edit, "claim": f"{what} in `{m.group(1)}`: what the properties of {name[6:-5]} say about its result is no longer true"})
            n += 1
            if n == per: break
rnd.shuffle(res)
json.dump(res, open(out, "w"), indent=1, ensure_ascii=False)
print(len(res), "edits")
