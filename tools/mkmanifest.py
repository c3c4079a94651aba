#!/usr/bin/env python3
"""Regenerates MANIFEST.json from the theorem names C##_* in lean/Verif and the notes below."""
import re, json, glob, os
root = os.path.join(os.path.dirname(os.path.abspath(__file__)), '..')
thms = {}
for f in sorted(glob.glob(os.path.join(root, 'lean/Verif/*.lean'))):
    ns = []
    for l in open(f):
        m = re.match(r'namespace (\S+)', l)
        if m: ns.append(m.group(1))
        m = re.match(r'end (\S+)', l)
        if m and ns and m.group(1) == ns[-1]: ns.pop()
        m = re.match(r'(?:protected )?theorem ((C\d\d+)_\w+)', l)
        if m: thms.setdefault(m.group(2), []).append('.'.join(ns + [m.group(1)]))
meta = json.load(open(os.path.join(root, 'tools/status.json')))
claims = []
for l in open(os.path.join(root, 'properties.jsonl')):
    p = json.loads(l)['id']
    st = meta.get(p, {})
    t = thms.get(p, [])
    if not t and st.get('status') != 'not_applicable': continue
    claims.append({'property': p, 'status': st.get('status', 'proved'), 'theorems': t, 'note': st.get('note', '')})
json.dump({'claims': claims}, open(os.path.join(root, 'MANIFEST.json'), 'w'), indent=1)
print(len(claims), 'claims', sum(len(c['theorems']) for c in claims), 'theorems')
