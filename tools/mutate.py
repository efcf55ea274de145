#!/usr/bin/env python3
"""Mutation testing of the theorems.

usage: mutate.py MUTANTS.json [--log] [--only ID ...]

Each mutant: {"id","file","def","old","new","edit","claims":["C01",..]}.  The Lean project is copied
to a scratch directory, `old` is replaced by `new` (once) in `file`, and the modules holding the
theorems of `claims` are built.  A claim survives when none of its theorems fails.
"""
import json, os, re, shutil, subprocess, sys, time
V = os.environ.get('MUT_BASE', '/verif/lean')
SCR = os.environ.get('MUT_SCRATCH', '/tmp/mutrun')
DECL = re.compile(r'^\s*(?:@\[[^\]]*\]\s*)?(?:private\s+|protected\s+|noncomputable\s+)*(theorem|lemma|def|example|abbrev|instance|structure|inductive)\s*([^\s:({\[]*)')

def decls(path):
    out = []
    for i, l in enumerate(open(path), 1):
        m = DECL.match(l)
        if m: out.append((i, m.group(2) or m.group(1)))
    return out

def enclosing(path, line):
    name = None
    for i, n in decls(path):
        if i <= line: name = n
        else: break
    return name or '?'

def theorem_modules():
    d = {}
    for f in sorted(os.listdir(V + '/Verif/Props')):
        for _, n in decls(f'{V}/Verif/Props/{f}'):
            if re.match(r'C\d+_', n): d[n] = 'Verif.Props.' + f[:-5]
    return d

def run(m, tm):
    if os.path.exists(SCR): shutil.rmtree(SCR)
    subprocess.run(['cp', '-a', V, SCR], check=True)
    edits = m['edits'] if 'edits' in m else [m]
    for ed in edits:
        p = f"{SCR}/Verif/{ed.get('file', m['file'])}"
        s = open(p).read()
        if s.count(ed['old']) < 1: return None, 'old text not found', [], [], 0
        if s.count(ed['old']) > 1 and not ed.get('first') and not ed.get('all'):
            return None, 'old text not unique', [], [], 0
        s = s.replace(ed['old'], ed['new']) if ed.get('all') else s.replace(ed['old'], ed['new'], 1)
        open(p, 'w').write(s)
    mods = sorted({tm[t] for t in tm if t.split('_')[0] in m['claims']})
    t0 = time.time()
    r = subprocess.run(['lake', 'build'] + mods, cwd=SCR, capture_output=True, text=True)
    out = r.stdout + r.stderr
    failed = []
    for f, l in re.findall(r'error: (Verif/\S+?\.lean):(\d+):\d+', out):
        n = (f, enclosing(f'{SCR}/{f}', int(l)))
        if n not in failed: failed.append(n)
    badmods = {f[:-5].replace('/', '.') for f, _ in failed}
    # modules blocked because of a failing import
    blocked = set()
    def imports(mod):
        p = f"{SCR}/{mod.replace('.', '/')}.lean"
        return re.findall(r'^import (Verif\.\S+)', open(p).read(), re.M) if os.path.exists(p) else []
    memo = {}
    def bl(mod):
        if mod not in memo:
            memo[mod] = False
            memo[mod] = any(i in badmods or bl(i) for i in imports(mod))
        return memo[mod]
    for mod in mods:
        if bl(mod): blocked.add(mod)
    # theorems whose proof refers to a failing declaration of the same file
    tainted = set()
    for f in {f for f, _ in failed}:
        ls = open(f'{SCR}/{f}').read().split('\n')
        ds = decls(f'{SCR}/{f}')
        bad = {n for g, n in failed if g == f}
        for k, (i, n) in enumerate(ds):
            end = ds[k + 1][0] - 1 if k + 1 < len(ds) else len(ls)
            words = set(re.findall(r"[^\s()\[\]{},:⟨⟩|]+", '\n'.join(ls[i:end])))
            dotted = {'.' + b.split('.')[-1] for b in bad if '.' in b}
            hit = words & bad or any(w.endswith(d) for w in words for d in dotted)
            if n not in ('example', 'instance') and hit: bad.add(n); tainted.add(n)
    surv = []
    for c in m['claims']:
        ths = [t for t in tm if t.startswith(c + '_')]
        if not any(tm[t] in blocked or t in tainted or any(n == t for _, n in failed) for t in ths):
            surv.append(c)
    return r.returncode, out, failed, sorted(blocked), time.time() - t0, surv

def main():
    args = sys.argv[1:]
    log = '--log' in args
    only = args[args.index('--only') + 1:] if '--only' in args else None
    muts = json.load(open(args[0]))
    tm = theorem_modules()
    for m in muts:
        if only and m['id'] not in only: continue
        res = run(m, tm)
        if res[0] is None:
            print(m['id'], 'BAD MUTANT', res[1]); continue
        rc, out, failed, blocked, dt, surv = res
        modelfail = [x for x in failed if x[0].startswith('Verif/Model')]
        status = 'MODEL DOES NOT COMPILE' if modelfail else ('SURVIVED' if surv else 'killed')
        print(f"{m['id']} {status} surv={surv} failed={[n for _, n in failed][:8]} blocked={blocked} {dt:.0f}s", flush=True)
        if modelfail: print(out[:1500])
        if log and not modelfail:
            rec = {'id': m['id'], 'definition': m['def'], 'edit': m['edit'], 'claim': m['claims'],
                   'failed': [n for _, n in failed], 'blocked_modules': blocked, 'survived': surv,
                   'tightened': m.get('tightened', [])}
            with open('/verif/seeded/LOG.jsonl', 'a') as fh: fh.write(json.dumps(rec) + '\n')

main()
