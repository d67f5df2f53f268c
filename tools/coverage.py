#!/usr/bin/env python3
"""Lists the functions of the source files that no citation `file.hpp:a-b` of a Lean file overlaps."""
import glob, re
cites = {}
for f in glob.glob("/verif/lean/Verif/**/*.lean", recursive=True):
    t = open(f, encoding="utf-8").read()
    for m in re.finditer(r"(\w+\.hpp):((?:\d+(?:-\d+)?(?:, | and )?)+)", t):
        for a, b in re.findall(r"(\d+)(?:-(\d+))?", m.group(2)):
            cites.setdefault(m.group(1), []).append((int(a), int(b or a)))
for src in sorted(glob.glob("/repo/sources/**/*.hpp", recursive=True)):
    L = open(src, encoding="utf-8").read().split("\n")
    name = src.split("/")[-1]
    i, n, miss = 0, 0, []
    while i < len(L):
        if L[i].strip() == "{" and i > 0 and ")" in L[i-1] + L[max(0, i-3)] and not re.match(r"\s*(if|for|while|switch|else|do|namespace|class|struct|enum)\b", L[i-1]):
            ind = len(L[i]) - len(L[i].lstrip())
            j = i
            while j < len(L) and not (L[j].startswith(" " * ind + "}") and len(L[j]) - len(L[j].lstrip()) == ind): j += 1
            if ind <= 4:
                n += 1
                if not any(a <= j + 1 and i <= b for a, b in cites.get(name, [])): miss.append((i, j + 1, L[i-1].strip()))
                i = j
        i += 1
    print(name, n, "functions,", len(miss), "not cited")
    for m in miss: print("   ", m)
