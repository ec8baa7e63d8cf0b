#!/usr/bin/env python3
"""Write DESIGN.md: tools/design_head.md and the outcome for every property."""
import json
root = '/verif/'
claims = {c['property']: c for c in json.load(open(root + 'MANIFEST.json'))['claims']}
out = [open(root + 'tools/design_head.md').read(), '## Properties\n', '`properties.jsonl` has the statements, `MANIFEST.json` the claims.\n']
for l in open(root + 'properties.jsonl'):
    p = json.loads(l)
    c = claims.get(p['id'])
    if c is None:
        out.append(f"* **{p['id']} {p['title']}** no claim yet.")
        continue
    ts = ', '.join('`' + t.split('.')[-1] + '`' for t in c['theorems'])
    out.append(f"* **{p['id']} {p['title']}** ({c['status']}) {ts}. {c['note']}".rstrip())
open(root + 'DESIGN.md', 'w').write('\n'.join(out) + '\n')
