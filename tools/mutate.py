#!/usr/bin/env python3
"""Mutation testing of the model, in a scratch copy outside /verif.

usage: mutate.py mutants.json [out.jsonl]
mutants.json: [{"file": "Model/Int.lean", "definition": "...", "old": "...", "new": "...",
                "edit": "description", "breaks": "claim"}]
For every mutant the scratch copy is restored, edited and rebuilt. Declarations whose proofs fail are replaced
by `sorry` (in the scratch copy only) so that the build can go on, and in the end the property theorems that
depend on such a hole are listed: those are the theorems that caught the mutant.
"""
import json, os, re, shutil, subprocess, sys

SRC, DST = '/tmp/mut/base', '/tmp/mut/lean'   # base: a snapshot of /verif/lean with its build, taken at the start
DECL = re.compile(r'^(?:@\[[^\]]*\]\s*)?(?:private\s+|protected\s+|noncomputable\s+)*'
                  r'(theorem|lemma|example|def|instance|structure|inductive|abbrev|mutual|end|namespace|section|open|variable|#)\b ?([^\s:({\[]*)')

def sync(limit=None):
    os.makedirs(DST, exist_ok=True)
    subprocess.run(['rsync', '-a', '--delete', SRC + '/', DST + '/'], check=True) if shutil.which('rsync') else \
        subprocess.run(f'rm -rf {DST} && cp -a {SRC} {DST}', shell=True, check=True)

def build(target='Verif'):
    r = subprocess.run(['lake', 'build', target], cwd=DST, capture_output=True, text=True)
    out = r.stdout + r.stderr
    errs = set()
    for m in re.finditer(r'^error: (Verif/\S+?\.lean):(\d+):(\d+):', out, re.M):
        errs.add((m.group(1), int(m.group(2))))
    return r.returncode == 0, errs, out

def blocks(lines):
    starts = [i for i, l in enumerate(lines) if DECL.match(l) or l.startswith('/-')]
    return starts

def cut(text):
    """statement part of a declaration, up to the top-level `:=`"""
    d = 0
    i = 0
    while i < len(text):
        c = text[i]
        if c in '([{⟨': d += 1
        elif c in ')]}⟩': d -= 1
        elif d == 0 and (text.startswith(':=', i) or text.startswith('\n  | ', i)):
            return text[:i] + ' '
        i += 1
    return None

def sorrify(path, linenos):
    p = os.path.join(DST, path)
    lines = open(p).read().split('\n')
    starts = [i for i, l in enumerate(lines) if DECL.match(l)]
    comment = [i for i, l in enumerate(lines) if l.startswith('/-')]
    names, todo = [], set()
    for ln in linenos:
        s = [i for i in starts if i <= ln - 1]
        if s: todo.add(s[-1])
    for s in sorted(todo, reverse=True):
        e = min([i for i in starts + comment if i > s] + [len(lines)])
        m = DECL.match(lines[s])
        kind, name = m.group(1), m.group(2)
        names.append((kind, name or '(example)'))
        if kind == 'example':
            lines[s:e] = ['example : True := trivial', '']
            continue
        if kind not in ('theorem', 'lemma'):
            names[-1] = ('BROKEN ' + kind, name)
            continue
        st = cut('\n'.join(lines[s:e]))
        if st is None:
            names[-1] = ('BROKEN ' + kind, name); continue
        lines[s:e] = (st + ':= sorry').split('\n') + ['']
    open(p, 'w').write('\n'.join(lines))
    return names

def props():
    out = []
    d = os.path.join(DST, 'Verif/Props')
    for f in sorted(os.listdir(d)):
        t = open(os.path.join(d, f)).read()
        ns = []
        for l in t.split('\n'):
            m = re.match(r'namespace (\S+)', l)
            if m: ns.append(m.group(1))
            m = re.match(r'end (\S+)', l)
            if m and ns and ns[-1] == m.group(1): ns.pop()
            m = re.match(r'theorem (\S+)', l)
            if m: out.append('.'.join(ns + [m.group(1)]))
    return out

def run(mu):
    sync()
    p = os.path.join(DST, 'Verif', mu['file'])
    t = open(p).read()
    if t.count(mu['old']) != 1:
        return {'error': f"old text occurs {t.count(mu['old'])} times"}
    open(p, 'w').write(t.replace(mu['old'], mu['new']))
    failed = []
    for rnd in range(25):
        ok, errs, out = build()
        if ok: break
        if not errs:
            return {'error': 'build failed without located errors', 'out': out[-1500:]}
        by = {}
        for f, l in errs: by.setdefault(f, []).append(l)
        stop = False
        for f, ls in by.items():
            for kind, name in sorrify(f, ls):
                if kind.startswith('BROKEN'):
                    stop = True
                failed.append(f'{os.path.basename(f)[:-5]}: {kind} {name}')
        if stop:
            return {'lemmas_failed': failed, 'props_failed': ['(definition no longer compiles)'], 'out': out[-1500:]}
    ps = props()
    chk = 'import Verif\n' + '\n'.join(f'#print axioms {x}' for x in ps)
    open(os.path.join(DST, 'Chk.lean'), 'w').write(chk)
    r = subprocess.run(['lake', 'env', 'lean', 'Chk.lean'], cwd=DST, capture_output=True, text=True)
    txt = re.sub(r'\n\s+', ' ', r.stdout)
    bad = re.findall(r"'([^']+)' depends on axioms: \[[^\]]*sorryAx", txt)
    return {'lemmas_failed': failed, 'props_failed': [b.split('.')[-1] for b in bad]}

if __name__ == '__main__':
    mus = json.load(open(sys.argv[1]))
    subprocess.run(f'rm -rf {SRC} && cp -a /verif/lean {SRC}', shell=True, check=True)
    outp = sys.argv[2] if len(sys.argv) > 2 else '/tmp/mut/out.jsonl'
    for mu in mus:
        r = run(mu)
        rec = {'definition': mu['definition'], 'file': 'lean/Verif/' + mu['file'], 'edit': mu['edit'], 'breaks': mu['breaks'], **r}
        with open(outp, 'a') as f: f.write(json.dumps(rec, ensure_ascii=False) + '\n')
        print(mu['definition'], '|', mu['edit'], '|', len(r.get('props_failed', [])), 'props', r.get('error', ''), flush=True)
