#!/usr/bin/env python3
"""Adds or replaces one entry of claims.json: tools/claim.py C10 proved "note" name1 name2 ...
Names without dots are prefixed with Verif.<id>. With status "+", adds names to the entry and
appends the note."""
import json, sys, os
P = os.path.join(os.path.dirname(os.path.abspath(__file__)), 'claims.json')
pid, status, note, *names = sys.argv[1:]
names = [n if '.' in n else f'Verif.{pid}.{n}' for n in names]
old = json.load(open(P))
if status == '+':
    e = next(x for x in old if x['property'] == pid)
    status, names = e['status'], e['theorems'] + [n for n in names if n not in e['theorems']]
    note = ' '.join(filter(None, [e['note'], note]))
c = [x for x in old if x['property'] != pid]
c.append({'property': pid, 'status': status, 'theorems': names, 'note': note})
c.sort(key=lambda x: x['property'])
json.dump(c, open(P, 'w'), indent=1, ensure_ascii=False)
