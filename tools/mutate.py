#!/usr/bin/env python3
"""Mutation experiments.

Usage: mutate.py mutants.json out.jsonl [id ...]

Every mutant is an edit of one model file: {"id", "file", "definition", "old", "new", "edit",
"breaks"}.  The edit is applied in a scratch copy of the Lake project (never in /verif).  Proofs that
no longer check are replaced by sorry and the build goes on, so that afterwards the theorems which
depend on a broken proof are exactly those which depend on sorryAx.
"""
import json, os, re, subprocess, sys, shutil

SRC = '/verif/lean'
SCRATCH = os.environ.get('MUT_SCRATCH', '/tmp/mut')
PRISTINE = SCRATCH + '/pristine'
WORK = SCRATCH + '/work'
DECL = re.compile(r'^(?:(?:private|protected|noncomputable|scoped|@\[[^\]]*\]) )*(theorem|lemma|example|instance|def|abbrev)\b')

AUDIT = r'''
import Verif
import Lean.Util.CollectAxioms
import Lean.Elab.Command
open Lean Elab Command
run_cmd do
  let env ← getEnv
  let mut failed := #[]
  let mut total := 0
  for (n, c) in env.constants.map₁.toList do
    unless c.isTheorem do continue
    let .str _ s := n | continue
    unless n.getRoot == `R1CS do continue
    unless s.length > 4 && s.toList[0]! == 'C' && s.toList[1]!.isDigit && s.toList[2]!.isDigit && (s.toList[3]! == '_' || s.toList[3]!.isDigit && s.toList[4]! == '_') do continue
    total := total + 1
    let axs ← collectAxioms n
    if axs.contains ``sorryAx then failed := failed.push n
  IO.println s!"TOTAL {total}"
  for n in failed do IO.println s!"FAILED {n}"
'''


def run(cmd, cwd, timeout=3000):
    try:
        r = subprocess.run(cmd, cwd=cwd, stdout=subprocess.PIPE, stderr=subprocess.STDOUT, text=True, timeout=timeout)
        return r.returncode, r.stdout
    except subprocess.TimeoutExpired as e:
        return -1, (e.stdout or b'').decode() if isinstance(e.stdout, bytes) else (e.stdout or '')


def sorry_at(path, line):
    """Replaces the proof of the declaration starting at the line (from 0); returns its name, or None."""
    src = open(path).read().split('\n')
    i = line
    kind = DECL.match(src[i]).group(1)
    end = i + 1
    while end < len(src) and (src[end] == '' or src[end][0] in ' \t'):
        end += 1
    block = '\n'.join(src[i:end])
    depth = 0
    cut = None
    k = 0
    while k < len(block):
        c = block[k]
        if c in '([{⟨':
            depth += 1
        elif c in ')]}⟩':
            depth -= 1
        elif depth == 0 and block.startswith(':=', k):
            cut = k
            break
        elif depth == 0 and (block.startswith('\n  | ', k) or block.startswith(' where\n', k)):
            cut = k
            break
        k += 1
    name = block.split('\n')[0][:100]
    m = re.search(r'(?:theorem|lemma|def|instance|abbrev)\s+([^\s:({\[]+)', block)
    if kind != 'example' and m:
        name = m.group(1)
    if cut is None:
        return None
    if re.match(r':= (by )?sorry', block[cut:].strip()):
        return None
    if kind == 'example':
        new = ''
    elif kind in ('theorem', 'lemma', 'instance'):
        new = block[:cut] + ' := by sorry'
    elif '/Model/' not in path and '/Spec/' not in path:
        new = block[:cut] + ' := sorry'
    else:
        return None
    src[i:end] = [new, '']
    if kind == 'example':
        # drop the doc comment as well
        j = i - 1
        if j >= 0 and src[j].rstrip().endswith('-/'):
            while j >= 0 and not src[j].lstrip().startswith('/--'):
                j -= 1
            if j >= 0:
                src[j:i] = []
    open(path, 'w').write('\n'.join(src))
    return ('example ' if kind == 'example' else '') + name


def copy(a, b):
    shutil.rmtree(b, ignore_errors=True)
    run(['cp', '-a', a, b], '/')


def prepare():
    os.makedirs(SCRATCH, exist_ok=True)
    copy(SRC, PRISTINE)
    # the tests of the model are left out: some of them do not terminate on wrong models
    path = PRISTINE + '/Verif.lean'
    s = open(path).read()
    open(path, 'w').write(re.sub(r'import Verif\.(Validation\.\w+|Audit)\n', '', s))


def experiment(m):
    copy(PRISTINE, WORK)
    path = f'{WORK}/Verif/{m["file"]}'
    s = open(path).read()
    if s.count(m['old']) != 1:
        return {'id': m['id'], 'status': f'edit matches {s.count(m["old"])} times'}
    open(path, 'w').write(s.replace(m['old'], m['new']))
    broken, examples, emptied = [], [], set()
    for it in range(40):
        code, out = run(['lake', 'build', 'Verif'], WORK)
        errs = re.findall(r'^error: (Verif/[^:]+\.lean):(\d+):(\d+)', out, re.M)
        if code == 0:
            break
        killed = [f for f in re.findall(r'^- (Verif\.\S+)$', out, re.M)] if not errs else []
        if killed and not emptied & set(killed):
            # examples may run out of memory on wrong models: leave out those of the module
            emptied |= set(killed)
            for f in killed:
                f = 'Verif/' + f[6:].replace('.', '/') + '.lean'
                src = open(f'{WORK}/{f}').read().split('\n')
                for l in sorted((i for i in range(len(src)) if src[i].startswith('example')), reverse=True):
                    n = sorry_at(f'{WORK}/{f}', l)
                    if n:
                        examples.append(n)
            continue
        if not errs:
            # out of memory or time: count the property theorems whose own proofs broke until then
            return {'id': m['id'], 'status': 'build stopped', 'broken': broken, 'output': out[-1500:],
                    'failed': sorted(n for n in broken if re.match(r'C\d\d\d?_', n))}
        byfile = {}
        for f, l, _ in errs:
            byfile.setdefault(f, set()).add(int(l))
        for f, lines in byfile.items():
            if '/Model/' in f:
                return {'id': m['id'], 'status': 'model does not compile', 'output': out[-1500:]}
            done = 0
            # from the bottom, so that line numbers stay valid
            src = open(f'{WORK}/{f}').read().split('\n')
            starts = {max([i for i in range(l) if DECL.match(src[i])], default=-1) for l in lines}
            for l in sorted(starts - {-1}, reverse=True):
                n = sorry_at(f'{WORK}/{f}', l)
                if n:
                    done += 1
                    (examples if n.startswith('example ') else broken).append(n)
            if done == 0:
                return {'id': m['id'], 'status': f'cannot repair {f}', 'broken': broken, 'output': out[-2500:]}
    else:
        return {'id': m['id'], 'status': 'too many rounds', 'broken': broken}
    open(f'{WORK}/audit.lean', 'w').write(AUDIT)
    code, out = run(['lake', 'env', 'lean', 'audit.lean'], WORK)
    failed = sorted(x.replace('R1CS.', '') for x in re.findall(r'^FAILED (\S+)', out, re.M))
    if 'TOTAL' not in out:
        return {'id': m['id'], 'status': 'audit failed', 'output': out[-1500:]}
    return {'id': m['id'], 'status': 'done', 'broken': broken, 'examples': len(examples), 'failed': failed}


def main():
    muts = json.load(open(sys.argv[1]))
    outp = sys.argv[2]
    only = set(sys.argv[3:])
    done = set()
    if os.path.exists(outp):
        done = {json.loads(l)['id'] for l in open(outp)}
    prepare()
    for m in muts:
        if (only and m['id'] not in only) or (not only and m['id'] in done):
            continue
        r = experiment(m)
        r.update({k: m[k] for k in ('definition', 'edit', 'breaks')})
        claims = re.findall(r'C\d\d\d?', ' '.join(m['breaks']) if isinstance(m['breaks'], list) else m['breaks'])
        hit = sorted({f.split('.')[-1].split('_')[0] for f in r.get('failed', [])})
        r['missed'] = [c for c in claims if c not in hit]
        with open(outp, 'a') as fh:
            fh.write(json.dumps(r, ensure_ascii=False) + '\n')
        print(m['id'], r['status'], 'missed', r['missed'], 'failed', len(r.get('failed', [])), flush=True)


main()
