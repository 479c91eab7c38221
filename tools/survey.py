#!/usr/bin/env python3
"""Systematic search for wrong programs that no theorem notices.

usage: survey.py gen out.json [seed] [per def]      -- one-token edits of the definitions in Verif/Model
       survey.py run mutations.json scratch_dir     -- build each edit in a scratch copy, stop at the first theorem that breaks

Results go to <scratch>.results.jsonl.  "survived" means that the whole project builds (broken examples are listed); such an
edit is either harmless or shows a theorem that says too little.
"""
import glob, json, os, random, re, signal, subprocess, sys
root = os.environ.get('VERIF_ROOT') or os.path.dirname(os.path.dirname(os.path.abspath(__file__)))
DEF = re.compile(r'^(?:@\[[^\]]*\] )*(?:noncomputable )?(?:def|abbrev)\s+(\S+)')
TOP = re.compile(r'^(theorem|lemma|example|instance|private |noncomputable |def |abbrev |structure |class |inductive |/--|/-!|@\[|namespace|end\b|section|variable|open |set_option|omit |universe|import )')
OPS = [(' < ', ' ≤ '), (' ≤ ', ' < '), (' + ', ' - '), (' - ', ' + '), (' * ', ' + '), (' / ', ' * '), (' && ', ' || '), (' || ', ' && '),
       (' ∧ ', ' ∨ '), (' ∨ ', ' ∧ '), (r'\b0\b', '1'), (r'\b1\b', '2'), (r'\b2\b', '3'), (r'\blower\b', 'upper'), (r'\bupper\b', 'lower'),
       (r'\btrue\b', 'false'), (r'\bfalse\b', 'true'), (r'\.min\b', '.max'), (r'\bmin\b', 'max'), (r'\bmax\b', 'min'), (' = ', ' ≠ '), (' ≠ ', ' = '),
       (' == ', ' != '), (' != ', ' == '), (r'\b\.fst\b', '.snd'), (r'\brand\b', 'randn'), (r'\brandn\b', 'rand'), (r'\bif ([^¬].*?) then\b', r'if ¬ (\1) then')]

def bodies(path):
    L = open(path).read().split('\n')
    i = 0
    while i < len(L):
        m = DEF.match(L[i])
        if not m:
            i += 1
            continue
        j = i + 1
        while j < len(L) and not TOP.match(L[j]): j += 1
        yield m.group(1), i, j, L
        i = j

def start(text):
    depth = 0
    for k, c in enumerate(text):
        if c in '([{': depth += 1
        elif c in ')]}': depth -= 1
        elif depth == 0 and (text.startswith(':=', k) or text.startswith(' where\n', k) or text.startswith('\n  | ', k)): return k
    return 0

def gen(out, seed, per):
    rnd = random.Random(seed)
    res = []
    for f in sorted(glob.glob(root + '/lean/Verif/Model/*.lean')):
        for name, i, j, L in bodies(f):
            text = '\n'.join(L[i:j])
            s0 = start(text)
            masked = re.sub(r'--.*', lambda m: '\x00' * len(m.group()), text)
            masked = re.sub(r'"[^"]*"', lambda m: '\x00' * len(m.group()), masked)
            cand = []
            for a, b in OPS:
                pat = a if '\\b' in a else re.escape(a)
                for m in re.finditer(pat, masked):
                    if m.start() < s0: continue
                    if a == ' = ' and re.search(r':\s*[^:]*$', ''): continue
                    new = text[:m.start()] + m.expand(b) .replace('\x00', '') + text[m.end():] if '\\1' in b else text[:m.start()] + b + text[m.end():]
                    cand.append((a, new, m.start()))
            rnd.shuffle(cand)
            seen, k = set(), 0
            for a, new, pos in cand:
                if a in seen: continue
                seen.add(a)
                full = '\n'.join(L[:i] + new.split('\n') + L[j:])
                res.append({'file': os.path.relpath(f, root + '/lean'), 'def': name, 'line': i + 1, 'op': a.strip(), 'old': text, 'new': new,
                            'at': text[max(0, pos - 40):pos + 40]})
                k += 1
                if k >= per: break
    rnd.shuffle(res)
    for n, r in enumerate(res): r['id'] = f'A{seed}-{n:03d}'
    json.dump(res, open(out, 'w'), ensure_ascii=False, indent=0)
    print(len(res))

def decl_at(path, ln):
    L = open(path).read().split('\n')
    i = ln
    while i > 0 and not re.match(r'^(theorem|lemma|example|instance|private theorem|noncomputable instance|def|abbrev|noncomputable def|structure)', L[i]): i -= 1
    return L[i]

def run(mu, scratch):
    subprocess.run(f'rm -rf {scratch}; cp -a {root}/lean {scratch}', shell=True)
    p = os.path.join(scratch, mu['file'])
    s = open(p).read()
    if s.count(mu['old']) != 1: return {'id': mu['id'], 'result': 'invalid', 'why': 'no unique match'}
    open(p, 'w').write(s.replace(mu['old'], mu['new']))
    pr = subprocess.Popen('exec nice -n 5 lake build', shell=True, cwd=scratch, stdout=subprocess.PIPE, stderr=subprocess.STDOUT, text=True, start_new_session=True)
    examples, verdict = [], None
    for line in pr.stdout:
        m = re.match(r'error: (Verif/\S+?\.lean):(\d+):\d+: (.*)', line)
        if not m: continue
        d = decl_at(os.path.join(scratch, m.group(1)), int(m.group(2)) - 1)
        if m.group(1).startswith('Verif/Model') or re.match(r'(noncomputable )?(def|abbrev|structure)', d):
            verdict = {'result': 'invalid', 'why': m.group(3)[:150], 'in': d[:80]}
            break
        if d.startswith('example'):
            examples.append(m.group(1) + ':' + m.group(2))
            continue
        verdict = {'result': 'caught', 'broken': os.path.basename(m.group(1))[:-5] + '.' + d.split()[1].strip('{(:'), 'why': m.group(3)[:150]}
        break
    if verdict:
        try: os.killpg(pr.pid, signal.SIGKILL)
        except ProcessLookupError: pass
        pr.wait()
    else:
        pr.wait()
        verdict = {'result': 'survived', 'code': pr.returncode}
    return {**{k: mu[k] for k in ('id', 'file', 'def', 'line', 'op', 'at')}, **verdict, 'examples': examples}

if sys.argv[1] == 'gen': gen(sys.argv[2], int(sys.argv[3]) if len(sys.argv) > 3 else 1, int(sys.argv[4]) if len(sys.argv) > 4 else 2)
else:
    done = set()
    out = sys.argv[3] + '.results.jsonl'
    if os.path.exists(out): done = {json.loads(l)['id'] for l in open(out)}
    for mu in json.load(open(sys.argv[2])):
        if mu['id'] in done: continue
        r = run(mu, sys.argv[3])
        with open(out, 'a') as h: h.write(json.dumps(r, ensure_ascii=False) + '\n')
        print(r['id'], r['result'], r.get('broken', ''), flush=True)
