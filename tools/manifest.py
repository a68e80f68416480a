#!/usr/bin/env python3
"""Regenerates MANIFEST.json: status and note per property from tools/status.json,
theorem names from the theorems C<nn>_* in lean/Verif/Props."""
import json, re, glob, os
root = os.path.dirname(os.path.dirname(os.path.abspath(__file__)))
status = json.load(open(root + '/tools/status.json'))
thms = {}
for f in sorted(glob.glob(root + '/lean/Verif/Props/*.lean')):
    ns = []
    for l in open(f):
        m = re.match(r'namespace (\S+)', l)
        if m: ns = [m.group(1)]
        m = re.match(r'theorem (C\d\d)_(\S+)', l)
        if m:
            thms.setdefault(m.group(1), []).append(ns[0] + '.' + m.group(1) + '_' + m.group(2))
ids = [json.loads(l)['id'] for l in open(root + '/properties.jsonl')]
out = []
for i in ids:
    if i not in status: continue
    st, note = status[i]
    out.append(json.dumps({"property": i, "status": st, "theorems": thms.get(i, []), "note": note}))
open(root + '/MANIFEST.json', 'w').write('{"claims": [\n' + ',\n'.join(out) + '\n]}\n')
json.load(open(root + '/MANIFEST.json'))
for i in ids:
    if i not in status: print('no status', i, len(thms.get(i, [])))
