#!/usr/bin/env python3
"""Checks/repairs citations of the form `file.hpp:a-b `name`` in a model file: prints for each citation the source line range of
the function whose declaration is nearest to the cited range."""
import re, sys
def ranges(path):
    L = open(path, encoding="utf-8").read().split("\n")
    out = []
    i = 0
    while i < len(L):
        m = re.match(r"    (?!/|\*|public|private|template)(\S.*)$", L[i])
        if m and i + 1 < len(L) and (L[i+1].rstrip() in ("    {",) or L[i+1].startswith("        :")):
            j = i
            while j < len(L) and L[j] != "    }":
                j += 1
            out.append((i+1, j+1, L[i].strip())); i = j
        elif m and L[i].rstrip().endswith("= default;"):
            out.append((i+1, i+1, L[i].strip()))
        i += 1
    return out
src, model = sys.argv[1], sys.argv[2]
R = ranges(src)
base = src.split("/")[-1]
text = open(model, encoding="utf-8").read()
for m in re.finditer(re.escape(base) + r":(\d+)(?:-(\d+))?([^\n]*)", text):
    a = int(m.group(1)); b = int(m.group(2) or a)
    best = min(R, key=lambda r: abs(r[0]-a) + abs(r[1]-b))
    ok = (best[0] <= a and b <= best[1])
    print("OK " if (a, b) == best[:2] else ("in " if ok else "BAD"), f"{a}-{b}", "->", f"{best[0]}-{best[1]}", best[2][:60], "|", m.group(3)[:40])
