#!/usr/bin/env python3
"""Systematic mutation of the model.

Usage: automutate.py out.jsonl [per-definition [seed [file ...]]]

Makes small edits (an operator, a literal, a branch, the order of two arguments, a dropped statement)
of the definitions in Model/, a few per definition, chosen at random.  Each is tried in a scratch copy.
A mutant is killed when a theorem (not merely an example) no longer checks; mutants which survive the
whole build are printed.  They are either harmless or show a gap in the theorems.
"""
import json, os, random, re, shutil, signal, subprocess, sys, threading, time

SRC = '/verif/lean'
SCRATCH = os.environ.get('AUTO_SCRATCH', '/tmp/auto')
PRISTINE, WORK = SCRATCH + '/pristine', SCRATCH + '/work'
DECL = re.compile(r'^(?:(?:private|protected|noncomputable|scoped|@\[[^\]]*\]) )*(theorem|lemma|example|instance|def|abbrev|structure|inductive)\b\s*(\S*)')
IDENT = r"[A-Za-z_αβ][\w'₁₂₃]*"
SWAPS = [(' + ', ' - '), (' - ', ' + '), (' * ', ' + '), (' / ', ' * '), (' % ', ' / '), (' < ', ' ≤ '),
         (' ≤ ', ' < '), (' > ', ' ≥ '), (' ≥ ', ' > '), (' && ', ' || '), (' || ', ' && '), (' ∧ ', ' ∨ '),
         (' ∨ ', ' ∧ '), ('true', 'false'), ('false', 'true'), (' ++ ', None), ('.take ', '.drop '),
         ('.drop ', '.take '), ('foldl', 'foldr'), (' then ', None), ('.reverse', ''), (' = ', ' ≠ '),
         (' ≠ ', ' = '), (' == ', ' != '), (' ^ ', ' * '), ('.x', '.y'), ('.y', '.x'), ('.1', '.2'), ('.2', '.1'),
         ('⌈', '⌊'), (' max ', ' min '), (' min ', ' max ')]


def definitions(path):
    """(name, start, end) of the definitions of a file, as offsets, comments blanked."""
    s = open(path).read()
    blank = re.sub(r'/-.*?-/', lambda m: re.sub(r'[^\n]', '\x01', m.group(0)), s, flags=re.S)
    blank = re.sub(r'--[^\n]*', lambda m: '\x01' * len(m.group(0)), blank)
    lines = blank.split('\n')
    off, pos = [], 0
    for l in lines:
        off.append(pos)
        pos += len(l) + 1
    res = []
    i = 0
    while i < len(lines):
        m = DECL.match(lines[i])
        if m and m.group(1) in ('def', 'abbrev', 'instance', 'structure', 'inductive'):
            j = i + 1
            while j < len(lines) and (lines[j] == '' or lines[j][0] in ' \t\x01|'):
                j += 1
            if m.group(1) in ('def', 'abbrev', 'instance'):
                res.append((m.group(2), off[i], off[j] if j < len(lines) else len(s)))
            i = j
        else:
            i += 1
    return s, blank, res


def body_start(t):
    depth = 0
    for k, c in enumerate(t):
        if c in '([{⟨':
            depth += 1
        elif c in ')]}⟩':
            depth -= 1
        elif depth == 0 and (t.startswith(':=', k) or t.startswith('\n  | ', k) or t.startswith(' where\n', k)):
            return k + 2
    return len(t)


def mutants(path):
    s, blank, defs = definitions(path)
    for name, a, b in defs:
        t = blank[a:b]
        k0 = body_start(t)
        out = []

        def add(k, l, new, what):
            if '\x01' in t[k:k + l]:
                return
            out.append((a + k, l, new, what))
        for old, new in SWAPS:
            k = t.find(old, k0)
            while k >= 0:
                if new is not None and not (old in ('.1', '.2', '.x', '.y') and re.match(r'\w', t[k + 2:k + 3])) \
                        and not (old == ' = ' and t[max(0, k - 1)] == ':'):
                    add(k, len(old), new, f'{old.strip()} to {new.strip() or "nothing"}')
                k = t.find(old, k + 1)
        for m in re.finditer(r'(?<![\w.₁])(\d+)(?![\w.])', t[k0:]):
            n = int(m.group(1))
            for n2 in {n + 1, max(n - 1, 0)} - {n}:
                add(k0 + m.start(), len(m.group(1)), str(n2), f'{n} to {n2}')
        for m in re.finditer(r'if ([^\n]*?) then', t[k0:]):
            c = m.group(1)
            if re.match(r'(let|h) ', c) or ' : ' in c.split(' ')[0:2]:
                continue
            add(k0 + m.start(1), len(c), f'¬ ({c})', f'condition {c} negated')
        for m in re.finditer(r'(?<=[ (])(%s) (%s)(?=[ )\n])' % (IDENT, IDENT), t[k0:]):
            x, y = m.group(1), m.group(2)
            if x != y and x not in KEY and y not in KEY:
                add(k0 + m.start(), len(m.group(0)), f'{y} {x}', f'{x} {y} swapped')
        for m in re.finditer(r'(?<=[ (])(%s) (%s) (%s)(?=[ )\n])' % (IDENT, IDENT, IDENT), t[k0:]):
            f, x, y = m.groups()
            if x != y and not ({f, x, y} & KEY):
                add(k0 + m.start(), len(m.group(0)), f'{f} {y} {x}', f'{f} {x} {y}: arguments swapped')
        for m in re.finditer(r'\n(    *)(B\.(?:assert|require|addGen|generator)[^\n]*)(?=\n)', t[k0:]):
            add(k0 + m.start(), len(m.group(0)), '', f'statement dropped: {m.group(2)}')
        # a variable replaced by another one used in the same definition
        ids = [m for m in re.finditer(r"(?<![\w.'])([a-z][\w']{0,12})(?![\w'.])", t[k0:])
               if m.group(1) not in KEY]
        names = sorted({m.group(1) for m in ids})
        for m in ids:
            for y in names:
                if y != m.group(1):
                    add(k0 + m.start(), len(m.group(1)), y, f'{m.group(1)} replaced by {y}')
        yield name, s, out


KEY = {'fun', 'let', 'if', 'then', 'else', 'match', 'with', 'do', 'return', 'pure', 'some', 'none', 'by', 'in', 'for',
       'have', 'show', 'from', 'where', 'mut', 'exact', 'simp', 'rfl', 'omega', 'termination_by', 'decreasing_by', 'at',
       'rw', 'obtain', 'intro', 'h', 'unfold', 'sorry', 'true', 'false', 'hp', 'hq', 'refine', 'cases', 'using', 'simpa'}


def mirror(a, b):
    """Makes b a copy of a, touching only files which differ in size or time."""
    os.makedirs(b, exist_ok=True)
    want = {}
    for e in os.scandir(a):
        want[e.name] = e
    for e in os.scandir(b):
        if e.name not in want or e.is_dir(follow_symlinks=False) != want[e.name].is_dir(follow_symlinks=False):
            if e.is_dir(follow_symlinks=False):
                shutil.rmtree(e.path)
            else:
                os.remove(e.path)
    for n, e in want.items():
        t = os.path.join(b, n)
        if e.is_symlink():
            if not os.path.lexists(t):
                os.symlink(os.readlink(e.path), t)
        elif e.is_dir():
            mirror(e.path, t)
        else:
            x = e.stat()
            y = os.stat(t) if os.path.exists(t) else None
            if y is None or x.st_size != y.st_size or x.st_mtime_ns != y.st_mtime_ns:
                shutil.copy2(e.path, t)


def restore():
    mirror(PRISTINE, WORK)


def decl_at(f, line):
    src = open(f'{WORK}/{f}').read().split('\n')
    for i in range(min(line, len(src)) - 1, -1, -1):
        m = DECL.match(src[i])
        if m:
            return m.group(1), m.group(2), i
    return None, None, 0


def drop_example(f, i):
    path = f'{WORK}/{f}'
    src = open(path).read().split('\n')
    end = i + 1
    while end < len(src) and (src[end] == '' or src[end][0] in ' \t'):
        end += 1
    j = i - 1
    while j >= 0 and src[j].strip() == '':
        j -= 1
    if src[i - 1].rstrip().endswith('-/'):
        j = i - 1
        while j >= 0 and not src[j].lstrip().startswith('/--'):
            j -= 1
        i = j
    src[i:end] = ['']
    open(path, 'w').write('\n'.join(src))


def build(target, limit):
    """Runs the build until it ends or the first errors outside of examples."""
    p = subprocess.Popen(['lake', 'build', target], cwd=WORK, stdout=subprocess.PIPE, stderr=subprocess.STDOUT,
                         text=True, start_new_session=True)
    ex, hit, tail = set(), None, []
    def stop():
        try:
            os.killpg(p.pid, signal.SIGKILL)
        except ProcessLookupError:
            pass
    timer = threading.Timer(limit, stop)
    timer.start()
    for line in p.stdout:
        tail = (tail + [line])[-30:]
        m = re.match(r'error: (Verif/[^:]+\.lean):(\d+):(\d+): (.*)', line)
        if m:
            kind, name, i = decl_at(m.group(1), int(m.group(2)))
            if '/Model/' in m.group(1):
                hit = ('invalid', f'{m.group(1)}: {m.group(4)[:80]}')
            elif kind == 'example':
                ex.add((m.group(1), i))
                continue
            else:
                hit = ('killed', f'{m.group(1)}: {name}')
            break
    if hit:
        stop()
    p.wait()
    timer.cancel()
    if hit:
        return hit, ex
    if p.returncode == 0:
        return ('survived', ''), ex
    if ex:
        return None, ex
    return ('stopped', ''.join(tail)[-600:]), ex


def experiment(path, s, a, l, new):
    restore()
    open(path, 'w').write(s[:a] + new + s[a + l:])
    examples = 0
    for _ in range(12):
        r, ex = build('Verif', 2400)
        if r is not None:
            return r[0], r[1], examples + len(ex)
        byfile = {}
        for f, i in ex:
            byfile.setdefault(f, set()).add(i)
        for f, lines in byfile.items():
            for i in sorted(lines, reverse=True):
                drop_example(f, i)
                examples += 1
    return 'stopped', 'too many rounds', examples


def main():
    outp = sys.argv[1]
    per = int(sys.argv[2]) if len(sys.argv) > 2 else 1
    rnd = random.Random(int(sys.argv[3]) if len(sys.argv) > 3 else 1)
    files = sys.argv[4:] or sorted(os.listdir(SRC + '/Verif/Model'))
    os.makedirs(SCRATCH, exist_ok=True)
    mirror(SRC, PRISTINE)
    v = PRISTINE + '/Verif.lean'
    t = open(v).read()
    open(v, 'w').write(re.sub(r'import Verif\.(Validation\.\w+|Audit)\n', '', t))
    done = set()
    if os.path.exists(outp):
        done = {(r['file'], r['definition'], r['at'], r['new']) for r in map(json.loads, open(outp))}
    jobs = []
    for f in files:
        for name, s, out in mutants(f'{SRC}/Verif/Model/{f}'):
            rnd.shuffle(out)
            # replaced variables are by far the most: only one in three
            vs = [m for m in out if ' replaced by ' in m[3]]
            others = [m for m in out if ' replaced by ' not in m[3]]
            out = []
            while vs or others:
                out += others[:2] + vs[:1]
                vs, others = vs[1:], others[2:]
            jobs.append((f, name, s, out))
    rnd.shuffle(jobs)
    for f, name, s, out in jobs:
        valid = 0
        tried = 0
        for a, l, new, what in out:
            if valid >= per or tried >= 6 * per:
                break
            if (f, name, a, new) in done:
                continue
            t0 = time.time()
            status, info, ex = experiment(f'{WORK}/Verif/Model/{f}', s, a, l, new)
            tried += 1
            if status != 'invalid':
                valid += 1
            r = {'file': f, 'definition': name, 'at': a, 'new': new, 'edit': what, 'line': s[:a].count('\n') + 1,
                 'status': status, 'info': info, 'examples': ex, 'seconds': round(time.time() - t0)}
            with open(outp, 'a') as fh:
                fh.write(json.dumps(r, ensure_ascii=False) + '\n')
            print(status, f, name, f'line {r["line"]}:', what, '|', info[:80].replace('\n', ' '), r['seconds'], flush=True)


if __name__ == '__main__':
    main()
