#!/usr/bin/env python3
"""Appends results of seeded/run.py (results.jsonl files) to seeded/LOG.jsonl.
Usage: gen_log.py results.jsonl [tightened.json]   (tightened: {mutation id: [theorems]})"""
import json, sys, os
LOG = '/verif/seeded/LOG.jsonl'
have = set()
if os.path.exists(LOG):
    for l in open(LOG):
        if l.strip(): have.add(json.loads(l).get('id'))
T = json.load(open(sys.argv[2])) if len(sys.argv) > 2 else {}
n = 0
with open(LOG, 'a') as o:
    for l in open(sys.argv[1]):
        r = json.loads(l)
        if r['id'] in have: continue
        have.add(r['id'])
        n += 1
        o.write(json.dumps(dict(
            id=r['id'], definition=r['definition'] + ' (lean/Verif/' + r['file'] + ')',
            edit=r['old'] + '  -->  ' + r['new'], claim_broken=r['claim'],
            build_failed=not r['survived'], theorems_failed=r['failed'],
            modules_not_built=r['bad'], theorems_tightened=T.get(r['id'], [])), ensure_ascii=False) + '\n')
print(n, 'lines added')
