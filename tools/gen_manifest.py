#!/usr/bin/env python3
"""Collect theorems named Cnn_* from lean/Verif/Props and write MANIFEST.json."""
import re, glob, json, os
root = os.path.dirname(os.path.dirname(os.path.abspath(__file__)))
thms = {}
for f in sorted(glob.glob(root + '/lean/Verif/Props/**/*.lean', recursive=True)):
    ns = []
    for line in open(f):
        m = re.match(r'namespace (\S+)', line)
        if m: ns.append(m.group(1))
        m = re.match(r'end (\S+)', line)
        if m and ns and ns[-1] == m.group(1): ns.pop()
        m = re.match(r'theorem (C\d\d\d?)_(\S+)', line)
        if m:
            name = '.'.join(ns + [m.group(1) + '_' + m.group(2)])
            thms.setdefault(m.group(1), []).append(name)
notes = json.load(open(root + '/tools/notes.json')) if os.path.exists(root + '/tools/notes.json') else {}
props = [json.loads(l)['id'] for l in open(root + '/properties.jsonl')]
claims = []
for p in props:
    t = thms.get(p, [])
    n = notes.get(p, {})
    if not t: 
        print('no theorem for', p)
        continue
    partial = n.get('status') == 'partial' or any(x.endswith('_partial') for x in t) and n.get('status') != 'proved'
    claims.append({"property": p, "status": "partial" if partial else "proved", "theorems": t, "note": n.get('note', '')})
json.dump({"claims": claims}, open(root + '/MANIFEST.json', 'w'), indent=1)
print(len(claims), 'claims', sum(len(c['theorems']) for c in claims), 'theorems')
