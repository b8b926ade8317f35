#!/usr/bin/env python3
"""Prints, for the theorems of MANIFEST.json, the axioms each depends on, grouped (for DESIGN.md)."""
import json, subprocess, re, collections
m = json.load(open('/verif/MANIFEST.json'))
ths = sorted({t for c in m['claims'] for t in c['theorems']})
src = 'import Verif\n' + ''.join(f'#print axioms {t}\n' for t in ths)
open('/tmp/ax.lean', 'w').write(src)
out = subprocess.run(['lake', 'env', 'lean', '/tmp/ax.lean'], cwd='/verif/lean', capture_output=True, text=True).stdout
groups = collections.defaultdict(list)
for t in ths:
    mm = re.search(r"'" + re.escape(t) + r"' depends on axioms: \[([^\]]*)\]", out)
    if mm: groups[', '.join(x.strip() for x in mm.group(1).replace('\n', ' ').split(','))].append(t)
    elif f"'{t}' does not depend on any axioms" in out: groups['none'].append(t)
    else: groups['?'].append(t)
for k in sorted(groups, key=len):
    print(f"* **{k}** ({len(groups[k])}): " + ', '.join(f'`{t.split(".")[-1]}`' for t in groups[k]) + '\n')
