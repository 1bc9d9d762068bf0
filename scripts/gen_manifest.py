#!/usr/bin/env python3
"""Regenerates MANIFEST.json from the theorem names in lean/Verif/Props/*.lean.

A theorem `Cnn_...` belongs to property Cnn. Status and note of each property are given in
scripts/status.json; a property without theorem is left out unless it has a status there.
"""
import json, re, glob, os
root = os.path.dirname(os.path.dirname(os.path.abspath(__file__)))
thms = {}
for f in sorted(glob.glob(root + '/lean/Verif/Props/*.lean')):
    ns = []
    src = open(f).read()
    src = re.sub(r'/-.*?-/', '', src, flags=re.S)
    for l in src.split('\n'):
        m = re.match(r'namespace (\S+)', l)
        if m: ns.append(m.group(1))
        m = re.match(r'end (\S+)', l)
        if m and ns and ns[-1] == m.group(1): ns.pop()
        m = re.match(r'theorem (C(\d+)_\S+)', l)
        if m: thms.setdefault('C' + m.group(2), []).append('.'.join(ns + [m.group(1)]))
status = json.load(open(root + '/scripts/status.json'))
props = [json.loads(l)['id'] for l in open(root + '/properties.jsonl')]
claims = []
for p in props:
    st = status.get(p)
    if st is None and p not in thms: continue
    if st is None: st = {'status': 'proved', 'note': ''}
    claims.append({'property': p, 'status': st['status'], 'theorems': thms.get(p, []), 'note': st['note']})
with open(root + '/MANIFEST.json', 'w') as o:
    o.write('{"claims": [\n' + ',\n'.join(json.dumps(c) for c in claims) + '\n]}\n')
print(len(claims), 'claims;', 'without: ', [p for p in props if p not in thms])
