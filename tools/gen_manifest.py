#!/usr/bin/env python3
"""Regenerate MANIFEST.json from the theorem names in lean/Verif/Props/*.lean and the notes below."""
import json, re, glob, collections
NOTES = json.load(open('/verif/tools/notes.json'))
th = collections.defaultdict(list)
for f in sorted(glob.glob('/verif/lean/Verif/Props/*.lean')):
    ns = []
    for l in open(f):
        m = re.match(r'namespace (\S+)', l)
        if m: ns.append(m.group(1))
        m = re.match(r'end (\S+)', l)
        if m and ns and ns[-1] == m.group(1): ns.pop()
        m = re.match(r'(?:protected )?theorem ((C\d\d)_\w+)', l)
        if m: th[m.group(2)].append('.'.join(ns + [m.group(1)]))
claims = []
for l in open('/verif/properties.jsonl'):
    pid = json.loads(l)['id']
    n = NOTES.get(pid, {})
    t = th.get(pid, [])
    if not t: status = n.get('status', 'not_applicable')
    else: status = n.get('status') or ('partial' if any(x.endswith('_partial') for x in t) else 'proved')
    note = n.get('note', '')
    if not t and not note: note = 'not modelled yet'
    claims.append({'property': pid, 'status': status, 'theorems': t, 'note': note})
json.dump({'claims': claims}, open('/verif/MANIFEST.json', 'w'), indent=1, ensure_ascii=False)
print(collections.Counter(c['status'] for c in claims), sum(len(c['theorems']) for c in claims))
