#!/usr/bin/env python3
"""Writes DESIGN.md = tools/design_body.md + findings and axiom table generated from the sources."""
import json, re, subprocess, glob
body = open('/verif/tools/design_body.md').read()
m = json.load(open('/verif/MANIFEST.json'))
notes = {c['property']: c for c in m['claims']}
refs = {}
for f in glob.glob('/verif/lean/Verif/Props/*.lean'):
    for t in re.findall(r'theorem (C\d+_\w*refuted)', open(f).read()):
        refs.setdefault(t[:3], []).append(t)
out = ["\n## Findings proved as refutations\n",
       "Each is a theorem with a concrete witness; the manifest note of the property says what holds instead.\n"]
for k in sorted(refs):
    out.append(f"* **{k}**: " + ', '.join(f'`{t}`' for t in sorted(refs[k])))
ax = subprocess.run(['python3', '/verif/tools/axioms.py'], capture_output=True, text=True).stdout
out += ["\n## Axioms each manifest theorem depends on\n",
        "Generated by `tools/axioms.py` (`#print axioms`).\n", ax.strip(), ""]
open('/verif/DESIGN.md', 'w').write(body.rstrip() + '\n' + '\n'.join(out))
