#!/usr/bin/env python3
"""Rebuild MANIFEST.json: theorems named Cnn_... in lean/Verif/Props, statuses and notes from tools/status.json."""
import json, re, glob, os
root = os.path.dirname(os.path.dirname(os.path.abspath(__file__)))
props = [json.loads(l) for l in open(root + '/properties.jsonl') if l.strip()]
status = json.load(open(root + '/tools/status.json'))
thms = {}
for f in sorted(glob.glob(root + '/lean/Verif/Props/*.lean')):
    ns = []
    for line in open(f):
        w = line.split()
        if w[:1] == ['namespace']:
            ns.append(w[1])
        elif w[:1] == ['end'] and len(w) == 2 and ns and ns[-1] == w[1]:
            ns.pop()
        m = re.match(r"theorem (C\d+\S*)", line)
        if m:
            for c in re.findall(r'C\d+', m.group(1)):
                if re.match(c + r'(?!\d)', m.group(1)) or (c + '_') in m.group(1):
                    thms.setdefault(c, []).append('.'.join(ns + [m.group(1)]))
claims = []
for p in props:
    s = status.get(p['id'])
    t = thms.get(p['id'], [])
    if s is None:
        s = ['partial', 'Not proved yet.'] if not t else ['partial', '']
    claims.append({'property': p['id'], 'status': s[0], 'theorems': t, 'note': s[1]})
json.dump({'claims': claims}, open(root + '/MANIFEST.json', 'w'), indent=1, ensure_ascii=False)
from collections import Counter
print(Counter(c['status'] for c in claims), 'without theorems:', [c['property'] for c in claims if not c['theorems']])
