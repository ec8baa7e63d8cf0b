#!/usr/bin/env python3
"""Write MANIFEST.json from tools/claims.json with fully qualified names, checking that the
theorems exist and reporting the properties of properties.jsonl without claim."""
import json, re, pathlib, sys
root = pathlib.Path('/verif')
claims = json.load(open(root / 'tools/claims.json'))
names = set()
for f in (root / 'lean/Verif').rglob('*.lean'):
    stack = []
    for l in f.read_text().splitlines():
        if m := re.match(r'(namespace|section)\b\s*(\S*)', l):
            stack.append(m.group(2) if m.group(1) == 'namespace' else '')
        elif re.match(r'mutual\b', l):
            stack.append('')
        elif re.match(r'end\b', l):
            stack.pop()
        elif m := re.match(r'(?:private |protected |@\[[^\]]*\] )*theorem ([^\s:({\[]+)', l):
            names.add('.'.join([s for s in stack if s] + [m.group(1)]))
out, bad = [], False
for line in open(root / 'properties.jsonl'):
    p = json.loads(line)['id']
    c = claims.get(p)
    if c is None:
        print('no claim for', p)
        continue
    full = []
    for t in c['theorems']:
        t = t if t.startswith('Verif.') else 'Verif.' + t
        if t not in names:
            print('missing theorem', p, t)
            bad = True
        full.append(t)
    out.append({'property': p, 'status': c['status'], 'theorems': full, 'note': c['note']})
json.dump({'claims': out}, open(root / 'MANIFEST.json', 'w'), indent=1, ensure_ascii=False)
print(len(out), 'claims')
sys.exit(bad)
