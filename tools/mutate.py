#!/usr/bin/env python3
"""Generate small edits of the model mechanically and see whether the development still builds.

usage: mutate.py SCRATCH OUT.jsonl FILE... [--max N] [--seed S]

Each mutant is one edit of one line of a model file: a condition negated, a statement left out, a
constant or operator exchanged, a case left out.  Mutants that do not compile are dropped.  For the
others the whole development is built; the record says which declarations failed first, or that
nothing failed (a survivor: either an edit without meaning or a gap in the theorems).
"""
import json, os, random, re, shutil, subprocess, sys
SRC = os.environ.get('SRC', '/verif/lean')
SWAPS = [(' || ', ' && '), (' && ', ' || '), ('true', 'false'), ('false', 'true'), ('.isSome', '.isNone'),
         ('.isNone', '.isSome'), (' < ', ' ≤ '), (' ≤ ', ' < '), ('some o', 'none'), ('some si', 'some vi'), ('+ 1', '+ 2'),
         ('+ 2', '+ 1'), ('.reverse', ''), ('.getLast?', '.head?'), ('.any ', '.all '), ('.all ', '.any '),
         ('∈', '∉'), (' ≠ ', ' = '), ('old.name', 'k'), ('old.parent', 'some o'), ('.attr', '.type'),
         ('Exc.isKey', 'Exc.isAKV'), ('Exc.isAKV', 'Exc.isKey'), ('.drop ', '.take '), ('insertBefore', 'insertAfter'),
         ('.contains ', '.isEmpty || !List.contains '), ('(w.objs o)', '(w.objs c)'), ('(w.objs c)', '(w.objs o)')]


def defs(lines):
    cur = None
    for i, l in enumerate(lines):
        m = re.match(r'(?:mutual|@\[.*\] )?(?:def|abbrev) (\S+)', l)
        if m:
            cur = m[1]
        elif l and not l[0].isspace() and not l.startswith('  '):
            if re.match(r'(theorem|instance|structure|inductive|namespace|end|section|variable|deriving|/--|mutual|-)', l):
                cur = None if not l.startswith('/--') else None
        yield i, cur, l


def mutants(path):
    lines = open(path).read().split('\n')
    out = []
    for i, d, l in defs(lines):
        if d is None or l.strip().startswith('--') or l.strip() == '':
            continue
        if i + 1 < len(lines) and re.match(r'(def|abbrev) ', l) and ':=' not in l:
            continue
        body = l
        head = ''
        if re.match(r'(def|abbrev) ', l):
            k = l.index(':=') + 2
            head, body = l[:k], l[k:]
        m = re.search(r'\bif (?!h :)(.*?) then', body)
        if m:
            out.append((i, d, 'condition negated', head + body[:m.start(1)] + '¬ (' + m[1] + ')' + body[m.end(1):]))
        for a, b in SWAPS:
            for m in re.finditer(re.escape(a), body):
                out.append((i, d, f'{a.strip()} -> {b.strip()}', head + body[:m.start()] + b + body[m.end():]))
        s = body.strip()
        if re.match(r'(modO|cacheDrop|notify|M\.modifyW|setitem|delitem|forU|M\.raise|setUuidRef|endIter|addSub)\b', s) and not head:
            nxt = lines[i + 1] if i + 1 < len(lines) else ''
            if len(nxt) - len(nxt.lstrip()) <= len(l) - len(l.lstrip()):
                out.append((i, d, 'statement left out', l[:len(l) - len(l.lstrip())] + 'pure ()'))
        if re.match(r'\| ', s) and '=>' in s and not head:
            out.append((i, d, 'case left out', '  -- left out'))
    return lines, out


def build(scratch, target=None):
    p = subprocess.run(['nice', 'lake', 'build'] + ([target] if target else []), cwd=scratch, capture_output=True, text=True)
    return p.returncode, p.stdout + p.stderr


def main():
    scratch, outp = sys.argv[1:3]
    files = [a for a in sys.argv[3:] if a.endswith('.lean')]
    opts = dict(zip(sys.argv[3:], sys.argv[4:]))
    n = int(opts.get('--max', 10))
    rnd = random.Random(int(opts.get('--seed', 1)))
    os.makedirs(scratch, exist_ok=True)
    if not os.path.exists(scratch + '/.lake'):
        shutil.copytree(SRC + '/.lake', scratch + '/.lake', symlinks=True)
    done = set()
    if os.path.exists(outp):
        done = {(r['file'], r['line'], r['new']) for r in map(json.loads, open(outp))}
    for f in files:
        shutil.rmtree(scratch + '/Verif', ignore_errors=True)
        shutil.copytree(SRC + '/Verif', scratch + '/Verif')
        for x in ('Verif.lean', 'lakefile.toml', 'lake-manifest.json'):
            shutil.copy(os.path.join(SRC, x), os.path.join(scratch, x))
        path = os.path.join(scratch, 'Verif', f)
        lines, ms = mutants(path)
        rnd.shuffle(ms)
        count = 0
        for i, d, what, new in ms:
            if count >= n:
                break
            if (f, i + 1, new) in done or new == lines[i]:
                continue
            ls = list(lines)
            ls[i] = new
            open(path, 'w').write('\n'.join(ls))
            rc, out = build(scratch, 'Verif.' + f[:-5].replace('/', '.'))
            if rc:
                continue
            count += 1
            rc, out = build(scratch)
            errs = []
            for m in re.finditer(r'error: (Verif\S*\.lean):(\d+):\d+', out):
                t = open(os.path.join(scratch, m[1])).read().split('\n')
                j = min(int(m[2]) - 1, len(t) - 1)
                while j >= 0 and not re.match(r'(?:@\[.*\] )?(theorem|def|example|instance|lemma)\b', t[j]):
                    j -= 1
                nm = re.match(r'(?:@\[.*\] )?(\w+) *([^\s:({\[]*)', t[j])
                x = (nm[2] if nm[1] == 'theorem' else nm[1] + ' in ' + m[1])
                if x not in errs:
                    errs.append(x)
            r = dict(file=f, line=i + 1, definition=d, what=what, old=lines[i].strip(), new=new, survived=rc == 0, failed_first=errs[:12])
            with open(outp, 'a') as o:
                o.write(json.dumps(r, ensure_ascii=False) + '\n')
            print('SURVIVED' if rc == 0 else 'killed', f, i + 1, d, what, '|', new.strip()[:100], flush=True)
        open(path, 'w').write('\n'.join(lines))


main()
