#!/usr/bin/env python3
"""Try a wrong program: edit one definition in a scratch copy of lean/, rebuild, and list the theorems that no longer prove.

usage: mutate.py mutations.json [scratch dir]

Each mutation is {"id", "file", "old", "new", "claim"}.  Declarations whose proof breaks are replaced by `sorry` in the
scratch copy and the build goes on, so that the final list contains every theorem Cdd_* that depends on a broken proof.
Results are appended to <scratch>.results.jsonl; nothing in /verif is changed.
"""
import json, os, re, subprocess, sys
root = os.environ.get('VERIF_ROOT') or os.path.dirname(os.path.dirname(os.path.abspath(__file__)))
scratch = sys.argv[2] if len(sys.argv) > 2 else '/tmp/mut'
START = re.compile(r'^(theorem|lemma|example|instance|private theorem|noncomputable instance|@\[)')
DECL = re.compile(r'^(theorem|lemma|example|instance|private |noncomputable |def |abbrev |structure |class |inductive |'
                  r'/--|/-!|@\[|namespace|end\b|section|variable|open |set_option|omit |universe|import )')

def find_decl(lines, ln):
    i = ln
    while i >= 0 and not re.match(r'^(theorem|lemma|example|instance|private theorem|noncomputable instance|def|abbrev|noncomputable def|structure)', lines[i]):
        i -= 1
    j = i + 1
    while j < len(lines) and not DECL.match(lines[j]):
        j += 1
    return i, j

def split_proof(text):
    """Position of the `:=` (or `where`, or the first `|`) that starts the proof."""
    depth = 0
    k = 0
    while k < len(text):
        c = text[k]
        if c in '([{⟨': depth += 1
        elif c in ')]}⟩': depth -= 1
        elif depth == 0 and text.startswith(':=', k):
            line = text[text.rfind('\n', 0, k) + 1:k]
            if not re.search(r'\blet\s+\S+(\s*:\s*[^:]*)?\s*$', line):
                return k
        elif depth == 0 and text.startswith(' where\n', k): return k + 1
        elif depth == 0 and re.match(r'\n  \| ', text[k:k + 5]): return k + 1
        k += 1
    return None

def sh(cmd, **kw):
    return subprocess.run(cmd, shell=True, capture_output=True, text=True, **kw)

CHECK = '''import Verif
open Lean Meta Elab Command
partial def go (env : Environment) (n : Name) : StateM (Std.HashMap Name Bool) Bool := do
  if n == ``sorryAx then return true
  if let some b := (← get)[n]? then return b
  let ok := (`Stochopy).isPrefixOf n || (toString n).startsWith "_private.Verif"
  if !ok then return false
  modify (·.insert n false)
  let some ci := env.find? n | return false
  let cs := ci.type.getUsedConstants ++ (match ci.value? (allowOpaque := true) with
    | some v => v.getUsedConstants
    | none => #[])
  let mut r := false
  for c in cs do
    if ← go env c then r := true
  modify (·.insert n r)
  return r
run_cmd do
  let env ← getEnv
  let mut m : Std.HashMap Name Bool := {}
  let names := [NAMES]
  for n in names do
    let (b, m') := (go env n).run m
    m := m'
    if b then logInfo m!"TAINTED {n}"
'''

def run(mu):
    sh(f'rm -rf {scratch}; cp -a {root}/lean {scratch}')
    edits = mu.get('edits') or [{'file': mu['file'], 'old': mu['old'], 'new': mu['new']}]
    for e in edits:
        p = os.path.join(scratch, e['file'])
        s = open(p).read()
        if s.count(e['old']) < 1 or (s.count(e['old']) > 1 and not e.get('all')):
            return {'id': mu['id'], 'error': f"{s.count(e['old'])} matches"}
        open(p, 'w').write(s.replace(e['old'], e['new']))
    broken = []
    for rnd in range(60):
        r = sh('lake build 2>&1', cwd=scratch)
        out = r.stdout
        errs = sorted(set(re.findall(r'^error: (Verif/\S+?\.lean):(\d+):\d+', out, re.M)))
        if not errs:
            if r.returncode != 0:
                return {'id': mu['id'], 'error': out[-1500:], 'broken': broken}
            break
        byfile = {}
        for f, l in errs: byfile.setdefault(f, []).append(int(l) - 1)
        for f, ls in byfile.items():
            p = os.path.join(scratch, f)
            lines = open(p).read().split('\n')
            spans = sorted({find_decl(lines, l) for l in ls}, reverse=True)
            for i, j in spans:
                text = '\n'.join(lines[i:j])
                if not re.match(r'(theorem|lemma|example|instance|private theorem|noncomputable instance)', text):
                    m = re.search(r'^error: ' + re.escape(f) + r'[\s\S]{0,900}', out, re.M)
                    return {'id': mu['id'], 'error': f'{f}:{i+1} is not a theorem: {text[:100]}', 'out': m and m.group(0), 'broken': broken}
                name = re.match(r'(?:private )?\S+ ([^\s({\[:]+)', text)
                nm = name.group(1) if name and not text.startswith('example') else 'example'
                broken.append(f"{os.path.basename(f)[:-5]}.{nm}")
                if text.startswith('example'):
                    lines[i:j] = ['-- example removed'] + [''] * (j - i - 1)
                    # doc comment before an example must go too
                    k = i - 1
                    while k >= 0 and not lines[k].startswith('/--'): k -= 1
                    if k >= 0 and any(x.rstrip().endswith('-/') for x in lines[i-1:i]):
                        for q in range(k, i): lines[q] = ''
                    continue
                if ':= sorry' in text and text.rstrip().endswith(':= sorry'):
                    return {'id': mu['id'], 'error': f'statement of {nm} does not elaborate', 'broken': broken, 'out': out[:1500]}
                k = split_proof(text)
                if k is None:
                    return {'id': mu['id'], 'error': f'cannot find proof of {nm}', 'broken': broken}
                new = (text[:k].rstrip() + ' := sorry\n').split('\n')
                lines[i:j] = new + [''] * max(0, (j - i) - len(new))
            open(p, 'w').write('\n'.join(lines))
    else:
        return {'id': mu['id'], 'error': 'too many rounds', 'broken': broken}
    man = json.load(open(os.path.join(root, 'MANIFEST.json')))
    names = [t for c in man['claims'] for t in c['theorems']]
    f = os.path.join(scratch, 'Check.lean')
    open(f, 'w').write(CHECK.replace('NAMES', ', '.join('`' + n for n in names)))
    o = sh('lake env lean Check.lean', cwd=scratch).stdout
    tainted = re.findall(r'TAINTED (\S+)', o)
    os.remove(f)
    return {'id': mu['id'], 'claim': mu['claim'], 'edits': edits, 'broken': broken,
            'failed': [t.split('.')[-1] for t in tainted], 'note': '' if tainted else o[:500]}

for mu in json.load(open(sys.argv[1])):
    res = run(mu)
    with open(scratch + '.results.jsonl', 'a') as h:
        h.write(json.dumps(res, ensure_ascii=False) + '\n')
    print(res['id'], res.get('error', ''), res.get('failed'), flush=True)
