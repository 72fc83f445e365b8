#!/usr/bin/env python3
"""Counts of seeded/LOG.jsonl, as quoted in DESIGN.md ("Testing the theorems").  With -v also the attempts
that were not caught and whose edit was not caught in another attempt."""
import json, os, sys
ROOT = os.path.dirname(os.path.dirname(os.path.abspath(__file__)))
L = [json.loads(l) for l in open(ROOT + '/seeded/LOG.jsonl')]
def key(x): return json.dumps([x['file'], x['definition'], x['edit']], sort_keys=True)
run = [x for x in L if x['caught'] is not None]
caught = {key(x) for x in run if x['caught']}
missed = [x for x in run if not x['caught']]
open_ = [x for x in missed if key(x) not in caught]
print('lines', len(L), 'evaluated', len(run), 'different edits', len({key(x) for x in run}),
      'definitions', len({x['definition'] for x in run}))
print('caught', len(run) - len(missed), 'not caught', len(missed))
print('not caught, but the same edit was caught in another attempt', len(missed) - len(open_))
print('not caught in any attempt', len(open_), 'of these: some theorem failed, but not one of a property named',
      sum(bool(x['theorems_failed']) for x in open_), '; no theorem failed', sum(not x['theorems_failed'] for x in open_),
      '; without a note', sum('note' not in x for x in open_))
print('attempts after which theorems were tightened', sum(bool(x['theorems_tightened']) for x in L))
if '-v' in sys.argv:
    for x in open_:
        print('%s (%s): %s' % (x['definition'], ', '.join(x['properties']), x.get('note', 'no note')))
