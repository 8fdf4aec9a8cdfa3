#!/usr/bin/env python3
"""Reads the odd-radix butterflies of fft.hh as text, checks that they all have the shape evaluated by `oddDft` in Model/FFT.lean and prints
their index tables as Lean definitions."""
import re, sys
src = open(sys.argv[1] if len(sys.argv) > 1 else "/repo/fft.hh").read().split("\n")
def find(pat, start=0):
    return next(i for i in range(start, len(src)) if pat in src[i])
for R in [3, 5, 7, 11, 13, 17, 19, 23, 29, 31]:
    h = (R - 1) // 2
    # SIGN = 1
    b = find(f"struct Dit<{R}, {R}, STRIDE, TYPE, 1>")
    i = b + 2
    sig = re.sub(r"\s+", "", src[i] + src[i + 1])
    outs = ",".join(f"TYPE*out{k}" for k in range(R)).replace("TYPE*", "TYPE*")
    ins = ",".join(f"TYPEin{k}" for k in range(R))
    assert sig == f"staticinlinevoiddft({outs},{ins})", (R, sig)
    i += 3
    for j in range(1, h + 1):
        assert src[i].strip() == f"TYPE a{j}(in{j} + in{R-j}), t{j}(twiddle(in{j}, in{R-j}));", src[i]
        i += 1
    ctab, stab = [], []
    first = i
    for k in range(1, h + 1):
        for nm, fn, var, tab in (("c", "cx", "a", ctab), ("s", "sx", "t", stab)):
            l = src[i].strip(); i += 1
            m = re.fullmatch(rf"TYPE {nm}{k}\((.*)\);", l); assert m, l
            toks = m.group(1)
            row = []
            for j in range(1, h + 1):
                g = re.match(rf"( [+-] )?{fn}<(\d+),{R}>\({var}{j}\)", toks); assert g, (l, toks)
                assert (g.group(1) is None) == (j == 1)
                row.append((g.group(1) != " - ", int(g.group(2))))
                toks = toks[g.end():]
            assert toks == "", l
            if nm == "c": assert all(s for s, _ in row), l
            tab.append(row)
    assert src[i].strip() == "*out0 = in0 + " + " + ".join(f"a{j}" for j in range(1, h + 1)) + ";", src[i]
    i += 1
    for k in range(1, R):
        e = f"*out{k} = in0 + c{k} - s{k};" if k <= h else f"*out{k} = in0 + c{R-k} + s{R-k};"
        assert src[i].strip() == e, (src[i], e)
        i += 1
    # SIGN = -1
    n = find(f"struct Dit<{R}, {R}, STRIDE, TYPE, -1>")
    body = re.sub(r"\s+", "", src[n + 5] + src[n + 6])
    perm = [0] + list(range(R - 1, 0, -1))
    assert body == f"Dit<{R},{R},STRIDE,TYPE,1>::dft(" + ",".join(f"out{p}" for p in perm) + "," + ",".join(f"in{k}" for k in range(R)) + ");", body
    # leaf dit of both signs
    for st in (b, n):
        d = find("static inline void dit(", st)
        body = re.sub(r"\s+", "", "".join(src[d + 2: d + 4]))
        o = ",".join("out" if k == 0 else f"out+{k}" for k in range(R))
        a = ",".join("in[0]" if k == 0 else "in[STRIDE]" if k == 1 else f"in[{k}*STRIDE]" for k in range(R))
        assert body == f"dft({o},{a});", body
    print(f"/-- Indices of `cx` in the radix {R} butterfly, fft.hh:{first+1}-{first+2*h}. -/")
    print(f"def c{R} : List (List Nat) := [" + ", ".join("[" + ", ".join(str(v) for _, v in row) + "]" for row in ctab) + "]")
    print(f"/-- Signs and indices of `sx` in the radix {R} butterfly, fft.hh:{first+1}-{first+2*h}. -/")
    print(f"def s{R} : List (List Int) := [" + ", ".join("[" + ", ".join(("" if s else "-") + str(v) for s, v in row) + "]" for row in stab) + "]\n")
# combination steps of all radices
for R in [2, 3, 4, 5, 7, 8, 11, 13, 17, 19, 23, 29, 31]:
    b = find(f"struct Dit<{R}, BINS, STRIDE, TYPE, SIGN>")
    e = find("};", b)
    t = re.sub(r"\s+", "", "".join(src[b:e + 1]))
    ks = ",".join(["k0=0"] + [f"k{a}=" + (f"{a}*" if a > 1 else "") + "QUOTIENT" for a in range(1, R)])
    ls = ",".join(f"l{a}=0" for a in range(1, R))
    inc = ",".join(f"++k{a}" for a in range(R)) + "," + ",".join(f"l{a}+=" + (f"{a}*" if a > 1 else "") + "STRIDE" for a in range(1, R))
    args = ",".join(f"out+k{a}" for a in range(R)) + "," + ",".join(["out[k0]"] + [f"z[l{a}]*out[k{a}]" for a in range(1, R)])
    want = (f"structDit<{R},BINS,STRIDE,TYPE,SIGN>{{staticconstintRADIX={R};staticconstintQUOTIENT=BINS/RADIX;"
      f"staticvoiddit(TYPE*out,constTYPE*in,constTYPE*z){{for(into=0,i=0;o<BINS;o+=QUOTIENT,i+=STRIDE)"
      f"Dit<split(QUOTIENT),QUOTIENT,RADIX*STRIDE,TYPE,SIGN>::dit(out+o,in+i,z);"
      f"for(int{ks},{ls};k0<QUOTIENT;{inc})Dit<RADIX,RADIX,STRIDE,TYPE,SIGN>::dft({args});}}}};")
    assert t == want, (R, t, want)
