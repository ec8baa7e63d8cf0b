#!/usr/bin/env python3
"""Apply seeded bugs to a scratch copy of the model and see which theorems fail.

usage: [SRC=dir] [SCOPE=claims] seed.py SCRATCH SEEDS.json LOG.jsonl [id ...]

With SCOPE=claims only the modules of the theorems of the claims named by the seed, and what they
import, are built and asked for axioms.

A theorem whose proof breaks is replaced by `sorry` in the scratch copy, and the build is
repeated, so that the theorems resting on it are checked too.  Reported are the theorems
whose own proof broke and the claimed theorems that rest on one of them.
"""
import json, os, re, shutil, subprocess, sys

SRC = os.environ.get('SRC', '/verif/lean')
DECL = re.compile(r'^(?:@\[[^\]]*\] *)?(?:private |protected )?(theorem|lemma|example|def|instance|structure|inductive)\b *([^\s:({\[]*)')


def body_start(text):
    depth = 0
    i = 0
    while i < len(text):
        c = text[i]
        if c in '([{⟨':
            depth += 1
        elif c in ')]}⟩':
            depth -= 1
        elif depth == 0 and (text.startswith(':=', i) and not re.search(r'\blet \S+ $', text[:i])
                             or text.startswith('where\n', i) or re.match(r'\n +\|(?! *\|)', text[i:i+9])):
            return i
        i += 1
    return None


def namespaces(lines, upto):
    ns = []
    for l in lines[:upto]:
        m = re.match(r'^(namespace|section|end)\b *(\S*)', l)
        if m:
            if m[1] == 'end':
                if ns:
                    ns.pop()
            else:
                ns.append((m[1], m[2]))
    return '.'.join(n for k, n in ns if k == 'namespace')


def decl_line(path, line):
    """The line at which the declaration around `line` starts."""
    lines = open(path).read().split('\n')
    i = min(line - 1, len(lines) - 1)
    while i > 0 and not DECL.match(lines[i]):
        i -= 1
    return i + 1


def sorry_out(path, line):
    lines = open(path).read().split('\n')
    i = min(line - 1, len(lines) - 1)
    while i >= 0 and not DECL.match(lines[i]):
        i -= 1
    if i < 0:
        return None
    kind, name = DECL.match(lines[i]).groups()
    j = i + 1
    while j < len(lines) and (lines[j] == '' or lines[j][0].isspace()):
        j += 1
    full = (namespaces(lines, i) + '.' + name).lstrip('.')
    text = '\n'.join(lines[i:j])
    if kind == 'example':
        lines[i:j] = ['example : True := trivial', '']
        res = ('example', os.path.basename(path))
    elif kind in ('theorem', 'lemma'):
        b = body_start(text)
        if b is None or text[b:].strip() == ':= sorry':
            return ('stuck', full)
        lines[i:j] = (text[:b] + ' := sorry\n').split('\n')
        res = ('theorem', full)
    else:
        return ('stuck', full)
    open(path, 'w').write('\n'.join(lines))
    return res


def targets(seed):
    """The claimed theorems to look at, and the modules to build for them."""
    scoped = os.environ.get('SCOPE') == 'claims'
    names = sorted({t for c in json.load(open('/verif/MANIFEST.json'))['claims']
                    if not scoped or c['property'] in seed['claims'] for t in c['theorems']})
    if not scoped:
        return names, []
    mods, here = set(), set()
    for root, _, files in os.walk(SRC + '/Verif'):
        for f in files:
            if f.endswith('.lean'):
                path = os.path.join(root, f)
                found = set(re.findall(r'^theorem (\S+)', open(path).read(), re.M))
                for n in names:
                    if n.split('.')[-1] in found:
                        mods.add(os.path.relpath(path, SRC)[:-5].replace('/', '.'))
                        here.add(n)
    return sorted(here), sorted(mods)


def build(scratch, mods):
    p = subprocess.run(['lake', 'build'] + mods, cwd=scratch, capture_output=True, text=True)
    errs = sorted({(m[1], int(m[2])) for m in
                   re.finditer(r'error: (Verif\S*\.lean):(\d+):\d+', p.stdout + p.stderr)})
    return p.returncode, errs, p.stdout + p.stderr


def sync(scratch):
    shutil.rmtree(scratch + '/Verif', ignore_errors=True)
    shutil.copytree(SRC + '/Verif', scratch + '/Verif')
    for f in ('Verif.lean', 'lakefile.toml', 'lake-manifest.json'):
        shutil.copy(os.path.join(SRC, f), os.path.join(scratch, f))


def run(scratch, seed):
    sync(scratch)
    path = os.path.join(scratch, 'Verif', seed['file'])
    s = open(path).read()
    if s.count(seed['old']) != seed.get('count', 1):
        return {'id': seed['id'], 'error': f"edit matches {s.count(seed['old'])} times"}
    open(path, 'w').write(s.replace(seed['old'], seed['new']))
    failed, examples, stuck = [], set(), []
    names, mods = targets(seed)
    for _ in range(40):
        rc, errs, out = build(scratch, mods)
        if rc == 0:
            break
        if not errs:
            stuck.append(out[-300:])
            break
        done = set()
        progress = False
        # each broken declaration once, from the bottom up, so that line numbers stay valid: several
        # errors in one proof must not reach the declarations that move up when it is cut
        for f, l in sorted({(f, decl_line(os.path.join(scratch, f), l)) for f, l in errs}, reverse=True):
            r = sorry_out(os.path.join(scratch, f), l)
            if r is None or r[0] == 'stuck':
                if r and r[1] not in done and r[1] not in stuck:
                    stuck.append(r[1])
                continue
            progress = True
            if r[0] == 'example':
                examples.add(r[1])
            elif r[1] not in failed:
                failed.append(r[1])
            done.add(r[1])
        if not progress:
            break
    rests = [n for n in names if n in (f.replace('Verif.', '', 1) for f in failed)]
    if rc == 0:
        rests = []
        src = ''.join(f'import {m}\n' for m in mods or ['Verif']) + ''.join(f'#print axioms {n if n.startswith("Verif.") else "Verif." + n}\n' for n in names)
        tmp = os.path.join(scratch, 'AxTmp.lean')
        open(tmp, 'w').write(src)
        p = subprocess.run(['lake', 'env', 'lean', 'AxTmp.lean'], cwd=scratch, capture_output=True, text=True)
        os.remove(tmp)
        flat = re.sub(r'\n\s+', ' ', p.stdout)
        for m in re.finditer(r"'([^']+)' depends on axioms: \[([^\]]*)\]", flat):
            if 'sorryAx' in m[2]:
                rests.append(m[1].replace('Verif.', '', 1))
    return {'id': seed['id'], 'definition': seed['def'], 'edit': seed['edit'], 'breaks': seed['breaks'],
            'failed_theorems': [f.replace('Verif.', '', 1) for f in failed],
            'claimed_theorems_lost': rests, 'failing_examples': sorted(examples), 'stuck': stuck,
            'tightened': [], **({'scope': seed['claims']} if mods else {})}


def main():
    scratch, seeds, log = sys.argv[1:4]
    want = set(sys.argv[4:])
    os.makedirs(scratch, exist_ok=True)
    if not os.path.exists(scratch + '/.lake'):
        shutil.copytree(SRC + '/.lake', scratch + '/.lake', symlinks=True)
    for seed in json.load(open(seeds)):
        if want and seed['id'] not in want:
            continue
        r = run(scratch, seed)
        with open(log, 'a') as f:
            f.write(json.dumps(r, ensure_ascii=False) + '\n')
        print(r['id'], r.get('error') or (len(r['failed_theorems']), [c for c in seed['claims'] if any(
            t.split('.')[-1].startswith(c.lower() + '_') for t in r['claimed_theorems_lost'])], 'of', seed['claims'], r['stuck']), flush=True)


main()
