#!/usr/bin/env python3
"""Append finished mutants of mutate.py to seeded/LOG.jsonl.   usage: logmut.py out.jsonl

The claims a mutant breaks are read off the theorems that failed; records already in the log are skipped."""
import json, os, re, sys

LOG = os.path.join(os.path.dirname(__file__), '..', 'seeded', 'LOG.jsonl')
seen = {(r['definition'], r['edit']) for r in map(json.loads, open(LOG))}
n = 0
with open(LOG, 'a') as f:
    for r in map(json.loads, open(sys.argv[1])):
        if 'error' in r or (r['definition'], r['edit']) in seen:
            continue
        bad = r.get('props_failed', [])
        ids = sorted({m.group(0) for t in bad for m in [re.match(r'C\d\d+', t)] if m})
        text = re.sub(r'^(C\d+[ ,/]*)+', '', r['breaks']).strip()
        f.write(json.dumps({'definition': r['definition'], 'file': r['file'], 'edit': r['edit'],
                            'breaks': (', '.join(ids) + (' (' + text + ')' if text else '')).strip(),
                            'lemmas_failed': r.get('lemmas_failed', []), 'theorems_failed': bad,
                            'outcome': 'caught' if ids else 'survived', 'tightened': []}, ensure_ascii=False) + '\n')
        n += 1
print(n, 'appended')
