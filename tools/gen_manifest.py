#!/usr/bin/env python3
"""Regenerate lean/Verif.lean (imports) and MANIFEST.json from the theorem names in lean/Verif/Props.

A property is 'partial' when one of its theorems carries the suffix _partial or _violated, or when it is listed in
PARTIAL below; notes come from tools/notes.json.
"""
import json, os, re
root = os.path.dirname(os.path.dirname(os.path.abspath(__file__)))
lean = os.path.join(root, 'lean')
mods = []
for d, _, fs in os.walk(os.path.join(lean, 'Verif')):
    for f in fs:
        if f.endswith('.lean'):
            mods.append(os.path.relpath(os.path.join(d, f), lean)[:-5].replace(os.sep, '.'))
order = ['Base', 'Model', 'Spec', 'Lemmas', 'Props']
mods.sort(key=lambda m: (order.index(m.split('.')[1]), m))
open(os.path.join(lean, 'Verif.lean'), 'w').write(''.join(f'import {m}\n' for m in mods))
notes = json.load(open(os.path.join(root, 'tools', 'notes.json')))
thms = {}
for f in sorted(os.listdir(os.path.join(lean, 'Verif', 'Props'))):
    ns = []
    for line in open(os.path.join(lean, 'Verif', 'Props', f)):
        m = re.match(r'namespace (\S+)', line)
        if m: ns.append(m.group(1)); continue
        m = re.match(r'end (\S+)', line)
        if m and ns and ns[-1] == m.group(1): ns.pop(); continue
        m = re.match(r'theorem (C\d\d+)(_\w+)', line)
        if m: thms.setdefault(m.group(1), []).append('.'.join(ns + [m.group(1) + m.group(2)]))
claims = []
for line in open(os.path.join(root, 'properties.jsonl')):
    pid = json.loads(line)['id']
    ts = thms.get(pid, [])
    n = notes.get(pid, {})
    status = n.get('status')
    if status is None:
        if not ts: status = 'not_applicable'
        elif any(t.endswith('_partial') or t.endswith('_violated') for t in ts): status = 'partial'
        else: status = 'proved'
    claims.append({'property': pid, 'status': status, 'theorems': ts,
                   'note': n.get('note', '' if ts else 'Not modelled yet.')})
json.dump({'claims': claims}, open(os.path.join(root, 'MANIFEST.json'), 'w'), indent=1, ensure_ascii=False)
for c in claims: print(c['property'], c['status'], len(c['theorems']))
