#!/usr/bin/env python3
"""Writes MANIFEST.json: theorem names are collected from lean/Verif/Props (theorem Cnn_...), the
status and the note of each property are kept here."""
import json, re, glob, os

root = os.path.join(os.path.dirname(os.path.abspath(__file__)), "..")
names = {}
for f in sorted(glob.glob(os.path.join(root, "lean/Verif/Props/*.lean"))):
    ns = []
    for line in open(f, encoding="utf-8"):
        m = re.match(r"namespace (\S+)", line)
        if m:
            ns.append(m.group(1))
        m = re.match(r"end (\S+)", line)
        if m and ns and ns[-1] == m.group(1):
            ns.pop()
        m = re.match(r"(?:protected )?theorem (C\d+)_(\S+)", line)
        if m:
            names.setdefault(m.group(1), []).append(".".join(ns + [m.group(1) + "_" + m.group(2)]))

P, Q = "proved", "partial"
status = {
    "C01": (P, "All byte strings without NUL; Literal is an independent grammar."),
    "C02": (P, "Round trip through the text and through a stream positioned anywhere before white space or end of input."),
    "C03": (P, "Exact for all operands in the lenient memory mode (the access one past the end in operator-= adds 0 and is harmless). C04 says exactly when the standard calls it undefined."),
    "C04": (Q, "False of the code: 10 - 10 accesses the element behind the last one. C04_sub_exact / C04_add_exact characterise it exactly, C04_div_exact does for / and %, and C04_is_prime_exact, C04_next_prime_exact, C04_sqrt_exact, C04_gcd_exact, C04_pow_exact and C04_log_exact for the functions that divide, C04_program_exact for whole programs; the _partial theorem lists the operations that stay in bounds."),
    "C05": (Q, "False of the code for +=: 5 += 5 gives 20. C05_add_self_exact says exactly when it is right, C05_add_self_value what it gives otherwise; the other four operators are proved."),
    "C06": (P, "Including absence of int overflow in the accumulators."),
    "C07": (P, "Lenient memory mode, see C03/C04."),
    "C08": (Q, "False of the code for negative dividends (-7 % 5 = 2). C08_mod_exact gives the exact value, C08_identity_iff exactly when the identity holds."),
    "C09": (P, ""),
    "C10": (Q, "Canonical form after every program is proved without exception; the values agree with mathematics for programs without the three defective statements (x += x with a digit above 4, % with negative dividend, Int(INT_MIN)). C10_exact gives the final values of every program, defective statements included."),
    "C11": (P, ""),
    "C12": (P, ""),
    "C13": (P, ""),
    "C14": (P, ""),
    "C15": (P, ""),
    "C16": (Q, "False of the code: sqrt(8) never returns. C16_sqrt_exact: hangs exactly when x >= 4 and x+1 is a perfect square, otherwise returns the integer square root."),
    "C17": (P, ""),
    "C18": (Q, "False of the code for negative bases and for |m| = 1; proved for non-negative bases, and up to sign for all bases with |b| != 1. C18_exact gives the value for every base, exponent and modulus, C18_iff says exactly when the property holds."),
    "C19": (P, "Hypothesis: the number of decimal digits fits int."),
    "C20": (P, ""),
    "C21": (Q, "False of the code for INT_MIN (undefined behaviour both ways); proved for all other values and all 8..64 bit types, with the exact exception."),
    "C22": (P, "For every outcome of the random source."),
}
exec(open(os.path.join(root, "tools/manifest_more.py")).read()) if os.path.exists(os.path.join(root, "tools/manifest_more.py")) else None

claims = []
for pid in sorted(status):
    st, note = status[pid]
    th = names.get(pid, [])
    assert th or st == "not_applicable", pid
    claims.append({"property": pid, "status": st, "theorems": th, "note": note})
with open(os.path.join(root, "MANIFEST.json"), "w") as f:
    json.dump({"claims": claims}, f, indent=1)
    f.write("\n")
print(len(claims), "claims", sum(len(c["theorems"]) for c in claims), "theorems")
for pid in names:
    if pid not in status:
        print("no status for", pid)
