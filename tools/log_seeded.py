#!/usr/bin/env python3
"""Append the results of tools/mutate.py to seeded/LOG.jsonl (one line per attempt).

usage: log_seeded.py results.jsonl [tightened.json]   -- tightened.json: {"S71": ["C75_cmaes", ...], ...}
"""
import json, os, sys
root = os.path.dirname(os.path.dirname(os.path.abspath(__file__)))
log = os.path.join(root, 'seeded', 'LOG.jsonl')
have = {json.loads(l)['id'] for l in open(log)}
tight = json.load(open(sys.argv[2])) if len(sys.argv) > 2 else {}
with open(log, 'a') as h:
    for l in open(sys.argv[1]):
        r = json.loads(l)
        if r['id'] in have or 'edits' not in r:
            print('skipped', r['id'], r.get('error', '')[:200])
            continue
        e = r['edits']
        h.write(json.dumps({
            'id': r['id'],
            'definition': ', '.join(f"{os.path.basename(x['file'])[:-5]} ({x['file']})" for x in e),
            'edit': ' ;; '.join(f"{x['old']}  ==>  {x['new']}" for x in e),
            'claim': r['claim'], 'theorems_failed': r['failed'], 'first_broken': r['broken'][:3],
            'theorems_tightened': tight.get(r['id'], [])}, ensure_ascii=False) + '\n')
