#!/usr/bin/env python3
"""Seeded-bug runner. Usage: mutate.py spec.json
spec: list of {"definition","file","old","new","edit","claim"}.
For each entry: copy /verif/lean to a scratch directory, apply the edit to the model, rebuild. Every theorem whose proof
breaks is replaced by an open goal in the scratch copy (examples are dropped) until everything compiles; the theorems
that then depend on an open goal are the ones that failed. One line is appended to seeded/LOG.jsonl per entry."""
import json, os, re, shutil, subprocess, sys
SRC = os.environ.get('MUT_SRC', '/verif/lean'); DST = '/tmp/mut/lean'; LOG = '/verif/seeded/LOG.jsonl'
DECL = re.compile(r'^(?:@\[[^\]]*\]\s*)?(?:private |protected |noncomputable )*(theorem|example|def|lemma|instance|abbrev|structure|inductive|mutual|end|namespace|open|section|/--|/-!|set_option|termination_by|decreasing_by|deriving|attribute|variable|@\[)')

def decls(lines):
    """line index ranges of top-level declarations"""
    starts = [i for i, l in enumerate(lines) if DECL.match(l)]
    return [(s, (starts[k + 1] if k + 1 < len(starts) else len(lines))) for k, s in enumerate(starts)]

def split_stmt(text):
    depth = 0; i = 0
    while i < len(text):
        c = text[i]
        if c == '"':  # brackets in strings do not count
            i += 1
            while i < len(text) and text[i] != '"': i += 2 if text[i] == '\\' else 1
        elif c in '([{⟨': depth += 1
        elif c in ')]}⟩': depth -= 1
        elif depth == 0 and text.startswith(':=', i): return text[:i]
        elif depth == 0 and text.startswith('\n  | ', i): return text[:i]
        elif depth == 0 and text.startswith(' where\n', i): return text[:i]
        i += 1
    return None

def run(entry):
    shutil.rmtree('/tmp/mut', ignore_errors=True); os.makedirs('/tmp/mut')
    subprocess.run(['cp', '-r', SRC, DST], check=True)
    for ed in [entry] + entry.get('also', []):  # `also`: the same edit in equations that restate the definition
        path = os.path.join(DST, ed.get('file', entry['file']))
        s = open(path).read()
        assert s.count(ed['old']) == ed.get('count', 1), (entry['definition'], ed['old'], s.count(ed['old']))
        open(path, 'w').write(s.replace(ed['old'], ed['new']))
    # the evaluations of the test suite are left out: they need much time and memory and prove nothing
    top = os.path.join(DST, 'Verif.lean'); t = open(top).read()
    open(top, 'w').write(re.sub(r'^import Verif\.Conformance.*\n', '', t, flags=re.M))
    direct, examples, bad, retries = [], 0, [], 0
    for _ in range(400):
        out = subprocess.run(['lake', 'build', '--no-ansi'], cwd=DST, capture_output=True, text=True)
        txt = out.stdout + out.stderr
        errs = {}
        for f, ln in re.findall(r'^error: (Verif/[\w/]+\.lean):(\d+):\d+', txt, re.M):
            errs.setdefault(f, set()).add(int(ln) - 1)
        if not errs:
            if 'exited with code 137' in txt and retries < 5: retries += 1; continue  # out of memory
            if out.returncode != 0: bad.append(txt[-800:])
            break
        progress = False
        for f, lns in errs.items():
            p = os.path.join(DST, f); lines = open(p).read().split('\n')
            rs = decls(lines); hit = sorted({r for r in rs for l in lns if r[0] <= l < r[1]}, reverse=True)
            # errors of the kernel are reported at the doc comment of a declaration
            hit = sorted({next((q for q in rs if q[0] == r[1]), r) if lines[r[0]].startswith('/--') else r for r in hit}, reverse=True)
            for a, b in hit:
                body = '\n'.join(lines[a:b]); m = DECL.match(body)
                if m.group(1) == 'example':
                    # the doc comment of an example goes with it: alone it would not compile
                    doc = [r for r in rs if r[1] == a and lines[r[0]].startswith('/--')]
                    lines[doc[0][0] if doc else a:b] = ['']; examples += 1; progress = True
                elif m.group(1) in ('theorem', 'lemma'):
                    name = re.search(r'(?:theorem|lemma)\s+(\S+)', body).group(1)
                    st = split_stmt(body)
                    # keep a trailing doc comment etc. out of it: body ends at next decl start
                    if st is None or 'SEEDED' in body:
                        bad.append(f'{f}: cannot open {name}'); continue
                    lines[a:b] = (st.rstrip() + ' := by /- SEEDED -/ sorry\n').split('\n'); direct.append(name); progress = True
                else:
                    bad.append(f'{f}:{a+1}: {body[:120]}')
            open(p, 'w').write('\n'.join(lines))
        if bad or not progress: break
    failed = []
    if not bad:
        names = []
        for root, _, fs in os.walk(os.path.join(DST, 'Verif/Props')):
            for fn in fs:
                names += re.findall(r'^theorem (C\d\d\d?_\w+)', open(os.path.join(root, fn)).read(), re.M)
        chk = 'import Verif\nopen Verif.Props\n' + ''.join(f'#print axioms {n}\n' for n in names)
        open(os.path.join(DST, 'Chk.lean'), 'w').write(chk)
        r = subprocess.run(['lake', 'env', 'lean', 'Chk.lean'], cwd=DST, capture_output=True, text=True).stdout
        failed = [n.split('.')[-1] for n, ax in re.findall(r"'([\w.]+)' depends on axioms: \[([^\]]*)\]", r) if 'sorryAx' in ax]
    return dict(direct=direct, examples=examples, failed=failed, bad=bad)

for e in json.load(open(sys.argv[1])):
    r = run(e)
    rec = {"definition": e['definition'], "edit": e['edit'], "claim_broken": e['claim'],
           "theorems_failed": r['failed'], "lemmas_and_theorems_with_broken_proof": r['direct'][:12],
           "examples_failed": r['examples'], "theorems_tightened": e.get('tightened', [])}
    if r['bad']: rec['does_not_compile'] = r['bad'][:2]
    print(json.dumps(rec, ensure_ascii=False), flush=True)
    with open(LOG, 'a') as f: f.write(json.dumps(rec, ensure_ascii=False) + '\n')
