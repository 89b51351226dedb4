#!/usr/bin/env python3
"""Append finished results of mutate.py to seeded/LOG.jsonl (each edit once).  usage: logmut.py results.json ..."""
import json, sys, os
log = os.path.join(os.path.dirname(__file__), '..', 'seeded', 'LOG.jsonl')
seen = set()
for l in open(log):
    o = json.loads(l); seen.add((o['definition'], o['edit'], 'retest' in o.get('remarks', '')))
out = open(log, 'a'); n = 0
for f in sys.argv[1:]:
    if not os.path.exists(f): continue
    for r in json.load(open(f)):
        if 'exception' in r: continue
        e = f"{r['file']}: `{r['old'].strip()}` -> `{r['new'].strip()}`"
        again = bool(r.get('retest'))
        if (r['definition'], e, again) in seen: continue
        seen.add((r['definition'], e, again)); n += 1
        o = {'definition': r['definition'], 'edit': e, 'claim': f"{r['property']}: {r['claim']}",
             'theorems_failed': r['killed'], 'examples_failed': len(r['failed_examples']),
             'theorems_using_it_that_still_prove': r['survivors'], 'theorems_tightened': r.get('tightened', r['killed'] if again else [])}
        if again: o['remarks'] = 'retest of an edit that no theorem noticed before; the theorems that fail now were added since'
        elif r['other']: o['remarks'] = r['other']
        out.write(json.dumps(o, ensure_ascii=False) + '\n')
print(n, 'appended')
