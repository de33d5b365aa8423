#!/usr/bin/env python3
"""Turn results of seed.py into lines of seeded/LOG.jsonl. Usage: mklog.py results.jsonl... >> LOG.jsonl"""
import json, sys
for f in sys.argv[1:]:
    for l in open(f):
        r = json.loads(l)
        if 'ERROR' in r or r.get('modelerr'): continue
        print(json.dumps({'definition': f"{r['file']}.{r['definition']}", 'edit': f"`{r['old'].strip()}` -> `{r['new'].strip()}`",
            'claim': f"{r['claim']} ({r['props']})", 'failed': r['failed'] or r['failed_decls'],
            'tightened': r.get('tightened', []), **({'note': r['note']} if 'note' in r else {}),
            **({'still_builds': True} if r['built'] else {})}, ensure_ascii=False))
