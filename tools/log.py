#!/usr/bin/env python3
"""Appends results of mutate.py to seeded/LOG.jsonl.  usage: log.py results.out tightened.json
tightened.json maps the number of a mutation to the list of theorems added or strengthened because of it."""
import json, os, sys
root = os.path.dirname(os.path.dirname(os.path.abspath(__file__)))
tight = json.load(open(sys.argv[2])) if len(sys.argv) > 2 else {}
with open(root + '/seeded/LOG.jsonl', 'a') as out:
    for l in open(sys.argv[1]):
        if not l.startswith('{'): continue
        d = json.loads(l)
        if 'problem' in d: continue
        out.write(json.dumps({'definition': d['definition'], 'edit': d['edit'], 'breaks': d['claim'], 'failed': d['failed'],
            'survived': d['survived'], 'tightened': tight.get(str(d['n']), [])}, ensure_ascii=False) + '\n')
