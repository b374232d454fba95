#!/usr/bin/env python3
"""Append the results of tools/seed.py to seeded/LOG.jsonl.

usage: seedlog.py OUT.jsonl TIGHTENED.json [CLAIMS.json]
TIGHTENED.json maps "definition | edit" to the theorems that were added or strengthened because of a surviving edit.
CLAIMS.json maps the names of claims used in the batch to property ids.
Lines that are in the log already are skipped."""
import json
import os
import sys

LOG = os.path.join(os.path.dirname(os.path.abspath(__file__)), '..', 'seeded', 'LOG.jsonl')


def main(out, tightened, claims=None):
    t = json.load(open(tightened))
    c = json.load(open(claims)) if claims else {}
    os.makedirs(os.path.dirname(LOG), exist_ok=True)
    done = set()
    if os.path.exists(LOG):
        for line in open(LOG):
            d = json.loads(line)
            done.add((d['definition'], d['edit'], d['replaced'], d['result']))
    with open(LOG, 'a') as f:
        for line in open(out):
            d = json.loads(line)
            r = {'definition': d['definition'], 'file': d['file'], 'edit': d['edit'],
                 'replaced': d['old'], 'by': d['new'], 'claim': '%s %s' % (c[d['claim']], d['claim']) if d['claim'] in c else d['claim'], 'result': d['result'],
                 'theorems_failed': d['failed'],
                 'theorems_tightened': t.get('%s | %s' % (d['definition'], d['edit']), [])}
            key = (r['definition'], r['edit'], r['replaced'], r['result'])
            if key not in done:
                done.add(key)
                f.write(json.dumps(r) + '\n')


main(*sys.argv[1:])
