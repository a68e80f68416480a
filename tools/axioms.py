#!/usr/bin/env python3
"""Write AXIOMS.md: the axioms every theorem of MANIFEST.json depends on."""
import json, re, subprocess, collections
man = json.load(open('/verif/MANIFEST.json'))
thms = sorted({t for c in man['claims'] for t in c['theorems']})
src = 'import Verif\n' + ''.join(f'#print axioms {t}\n' for t in thms)
open('/tmp/ax_all.lean', 'w').write(src)
out = subprocess.run(['lake', 'env', 'lean', '/tmp/ax_all.lean'], cwd='/verif/lean', capture_output=True, text=True).stdout
out = re.sub(r'\n\s+', ' ', out)
res = {}
for l in out.splitlines():
    m = re.match(r"'([^']+'?)' depends on axioms: \[(.*)\]", l)
    if m: res[m[1]] = ', '.join(sorted(m[2].replace(' ', '').split(',')))
    m = re.match(r"'([^']+'?)' does not depend on any axioms", l)
    if m: res[m[1]] = 'none'
missing = [t for t in thms if t not in res]
assert not missing, missing
by = collections.defaultdict(list)
for t in thms: by[res[t]].append(t)
with open('/verif/AXIOMS.md', 'w') as f:
    f.write('# Axioms of the theorems of MANIFEST.json\n\nGenerated by `tools/axioms.py` with `#print axioms`.\n')
    for a in sorted(by, key=len):
        f.write(f'\n## {a}\n\n')
        for t in by[a]: f.write(f'* `{t}`\n')
print({a: len(ts) for a, ts in by.items()})
