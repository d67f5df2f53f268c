#!/usr/bin/env python3
"""Small mechanical edits of every definition of the model, each tried in a scratch copy outside /verif.

usage: automut.py list OUT.json [per-definition]     list edits, a few per definition
       automut.py run IN.json OUT.jsonl              try them; a build stops at the first theorem that fails

An edit is `caught` when a theorem no longer compiles, `example` when only examples or tests fail,
`survived` when everything still builds and `invalid` when the model itself does not compile.
"""
import json, os, random, re, signal, subprocess, sys

ROOT = '/verif/lean'
SRC, DST = '/tmp/amut/base', '/tmp/amut/lean'
DECL = re.compile(r'^(?:@\[[^\]]*\]\s*)?(?:private\s+|protected\s+|noncomputable\s+|partial\s+)*'
                  r'(theorem|lemma|example|def|instance|structure|inductive|abbrev|mutual|end|namespace|section|open|variable|#)\b ?([^\s:({\[]*)')
SWAPS = [(r' < ', ' ≤ '), (r' ≤ ', ' < '), (r' > ', ' ≥ '), (r' ≥ ', ' > '), (r' == ', ' != '), (r' != ', ' == '),
         (r' \+ 1\b', ''), (r' - 1\b', ''), (r' \+ ', ' - '), (r' - ', ' + '), (r' && ', ' || '), (r' \|\| ', ' && '),
         (r' ∧ ', ' ∨ '), (r' ∨ ', ' ∧ '), (r'\btrue\b', 'false'), (r'\bfalse\b', 'true'), (r' ≠ ', ' = '),
         (r'(?<=if) (?=\w)', ' ¬ '), (r'\* ', '+ '), (r' / ', ' % '), (r' % ', ' / '),
         (r'\b0\b', '1'), (r'\b1\b', '0'), (r'\b(\d+)\b', lambda m: str(int(m.group(1)) + 1)),
         (r'!', ''), (r'\.1\b', '.2'), (r'\.2\b', '.1'), (r'\bINT_MAX\b', '(INT_MAX - 1)'),
         (r'\.drop\b', '.take'), (r'\.take\b', '.drop'), (r'\.reverse\b', ''), (r'\.head', '.getLast'),
         (r'::', '++ [] ++'), (r'\bx\b', 'y'), (r'\bi\b', '(i + 1)'), (r'\bs\b', 't'), (r'\bl\b', 'r')]

def listing(per):
    out = []
    d = os.path.join(ROOT, 'Verif/Model')
    rng = random.Random(7)
    for f in sorted(os.listdir(d)):
        lines = open(os.path.join(d, f)).read().split('\n')
        starts = [i for i, l in enumerate(lines) if DECL.match(l)]
        stops = starts + [i for i, l in enumerate(lines) if l.startswith('/-')] + [len(lines)]
        for s in starts:
            kind, name = DECL.match(lines[s]).groups()
            if kind not in ('def', 'abbrev'): continue
            e = min(i for i in stops if i > s)
            text = '\n'.join(lines[s:e])
            k = text.find(':=')
            k2 = text.find('\n  | ')
            k = min(x for x in (k, k2, len(text)) if x >= 0)
            cands = []
            for a, b in SWAPS:
                for m in re.finditer(a, text[k:]):
                    ls = text.rfind('\n', 0, k + m.start()) + 1
                    if '--' in text[ls:k + m.start()]: continue
                    new = m.expand(b) if isinstance(b, str) else b(m)
                    if new == m.group(0): continue
                    cands.append((s, k + m.start(), k + m.end(), new, text))
            rng.shuffle(cands)
            for (s_, a_, b_, new, text_) in cands[:per]:
                mut = text_[:a_] + new + text_[b_:]
                la = text_.rfind('\n', 0, a_) + 1
                le = text_.find('\n', a_); le = len(text_) if le < 0 else le
                le2 = mut.find('\n', a_); le2 = len(mut) if le2 < 0 else le2
                out.append({'file': 'Model/' + f, 'definition': name, 'old': text_, 'new': mut,
                            'edit': text_[la:le].strip() + '  →  ' + mut[la:le2].strip()})
    return out

def sync():
    os.makedirs(DST, exist_ok=True)
    subprocess.run(f'rm -rf {DST} && cp -a {SRC} {DST}', shell=True, check=True)

def where(path, ln):
    lines = open(os.path.join(DST, path)).read().split('\n')
    s = [i for i, l in enumerate(lines) if DECL.match(l) and i <= ln - 1]
    return DECL.match(lines[s[-1]]).groups() if s else ('?', '')

def run(mu):
    p = os.path.join(DST, 'Verif', mu['file'])
    orig = open(p).read()
    if orig.count(mu['old']) != 1: return {'result': 'invalid'}
    open(p, 'w').write(orig.replace(mu['old'], mu['new']))
    # the module itself first
    mod = 'Verif.' + mu['file'][:-5].replace('/', '.')
    try:
        r = subprocess.run(['lake', 'build', mod], cwd=DST, capture_output=True, text=True)
        if r.returncode != 0: return {'result': 'invalid'}
        weak = []
        pr = subprocess.Popen(['lake', 'build', 'Verif'], cwd=DST, stdout=subprocess.PIPE, stderr=subprocess.STDOUT, text=True,
                              start_new_session=True)
        for line in pr.stdout:
            m = re.match(r'^error: (Verif/\S+?\.lean):(\d+):(\d+):', line)
            if not m: continue
            kind, name = where(m.group(1), int(m.group(2)))
            if kind in ('theorem', 'lemma') and '/Tests/' not in m.group(1):
                os.killpg(pr.pid, signal.SIGTERM); pr.wait()
                return {'result': 'caught', 'by': f'{m.group(1)}: {name}'}
            weak.append(f'{m.group(1)}: {kind} {name}')
        pr.wait()
        if pr.returncode == 0: return {'result': 'survived'}
        return {'result': 'example', 'by': weak}
    finally:
        open(p, 'w').write(orig)

if __name__ == '__main__':
    if sys.argv[1] == 'list':
        ms = listing(int(sys.argv[3]) if len(sys.argv) > 3 else 2)
        json.dump(ms, open(sys.argv[2], 'w'), ensure_ascii=False, indent=0)
        print(len(ms))
    else:
        subprocess.run(f'mkdir -p /tmp/amut && rm -rf {SRC} && cp -a {ROOT} {SRC}', shell=True, check=True)
        sync()
        mus = json.load(open(sys.argv[2]))
        done = set()
        if os.path.exists(sys.argv[3]):
            for l in open(sys.argv[3]):
                r = json.loads(l); done.add((r['definition'], r['edit']))
        for n, mu in enumerate(mus):
            if (mu['definition'], mu['edit']) in done: continue
            sync()
            r = run(mu)
            with open(sys.argv[3], 'a') as f:
                f.write(json.dumps({'file': mu['file'], 'definition': mu['definition'], 'edit': mu['edit'], **r}, ensure_ascii=False) + '\n')
            print(mu['file'], mu['definition'], '|', mu['edit'], '|', r['result'], r.get('by', ''), flush=True)
