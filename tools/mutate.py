#!/usr/bin/env python3
"""Apply one realistic bug to a scratch copy of the model, rebuild, and report which theorems break.

Usage: mutate.py MUTATIONS.json   (a list of {file, old, new, definition, edit, claim, targets?})
With `targets` only these modules are rebuilt, and everything if no property theorem of theirs breaks.
Works in /tmp/mut (a copy of lean/).  A declaration that no longer compiles gets `sorry` as proof, and the
build goes on, so that the report lists every property theorem that depends on something broken.
"""
import json, os, re, subprocess, sys, shutil
ORIG, SRC, DST = '/verif/lean', '/tmp/mut/src', '/tmp/mut/lean'
LOG = '/verif/seeded/LOG.jsonl'

def sync():
    """Work from a snapshot of the sources, so that they can be edited meanwhile."""
    shutil.rmtree(SRC, ignore_errors=True)
    os.makedirs(SRC)
    shutil.copytree(os.path.join(ORIG, 'Verif'), os.path.join(SRC, 'Verif'))
    shutil.copy(os.path.join(ORIG, 'Verif.lean'), SRC)
    if not os.path.isdir(DST):
        os.makedirs(os.path.dirname(DST), exist_ok=True)
        subprocess.run(['cp', '-a', ORIG, DST], check=True)
    else:
        sync_sources()

def sync_sources():
    """Make the sources of the scratch copy equal to the originals, touching only files that differ."""
    for root in (SRC, DST):
        for d, _, fs in os.walk(os.path.join(root, 'Verif')):
            for f in fs:
                rel = os.path.relpath(os.path.join(d, f), root)
                a, b = os.path.join(SRC, rel), os.path.join(DST, rel)
                if not os.path.exists(a): os.remove(b); continue
                x = open(a).read()
                if not os.path.exists(b) or open(b).read() != x:
                    os.makedirs(os.path.dirname(b), exist_ok=True)
                    open(b, 'w').write(x)
    open(os.path.join(DST, 'Verif.lean'), 'w').write(open(os.path.join(SRC, 'Verif.lean')).read())

def decls(text):
    """(start, end, name) of top-level declarations, in characters."""
    heads = [m for m in re.finditer(r'^(?:@\[[^\]]*\] *)?(?:private |noncomputable |protected )*(theorem|lemma|example|def|instance|structure|inductive|abbrev|class|end|namespace|open|variable|section|/--|/-!|set_option|omit|attribute)(?![A-Za-z_]).*$', text, re.M)]
    out = []
    for i, m in enumerate(heads):
        e = heads[i + 1].start() if i + 1 < len(heads) else len(text)
        nm = re.match(r'(?:theorem|lemma)\s+(\S+)', text[m.start(1):])
        out.append((m.start(), e, m.group(1), nm.group(1) if nm else m.group(1)))
    return out

def sorry(decl):
    """Replace the proof by sorry."""
    depth, i = 0, 0
    while i < len(decl) - 1:
        c = decl[i]
        if c in '([{⟨': depth += 1
        if c in ')]}⟩': depth -= 1
        if depth == 0 and decl[i:i + 2] == ':=':
            line = decl[decl.rfind('\n', 0, i) + 1:i]
            if not re.search(r'\blet\b[^;]*$', line):
                return decl[:i] + ':= by sorry\n\n'
        i += 1
    # equation-style theorem
    m = re.search(r'\n  \| ', decl)
    if m: return decl[:m.start()] + ' := by sorry\n\n'
    return None

def build(targets=()):
    p = subprocess.run(['lake', 'build', *targets], cwd=DST, capture_output=True, text=True)
    errs = []
    for m in re.finditer(r'^error: (Verif/\S+\.lean):(\d+):(\d+): (.*)$', p.stdout + p.stderr, re.M):
        errs.append((m.group(1), int(m.group(2)), m.group(4)))
    return p.returncode, errs, p.stdout + p.stderr

def run(mut):
    r = run_on(mut, mut.get('targets', []), True)
    if mut.get('targets') and not r.get('error') and not r['props']:
        r = run_on(mut, [], False)
    return r

def run_on(mut, targets, patch):
    f = os.path.join(DST, mut['file'])
    t = open(f).read()
    if patch and t.count(mut['old']) != 1:
        return {'error': 'pattern occurs %d times' % t.count(mut['old'])}
    if patch: open(f, 'w').write(t.replace(mut['old'], mut['new']))
    broken, touched = [], {f}
    for it in range(40):
        rc, errs, out = build(targets)
        if rc == 0: break
        if not errs:
            return {'error': out[-2000:]}
        files = {}
        for file, line, msg in errs: files.setdefault(file, []).append(line)
        changed = False
        for file, lines in files.items():
            path = os.path.join(DST, file)
            if '/Model/' in file or '/Spec/' in file:
                return {'error': 'model does not compile: %s %s' % (file, [e for e in errs if e[0] == file][:2])}
            text = open(path).read()
            touched.add(path)
            offs = [0]
            for l in text.split('\n'): offs.append(offs[-1] + len(l) + 1)
            ds = decls(text)
            hit = set()
            for l in lines:
                pos = offs[l - 1]
                for d in ds:
                    if d[0] <= pos < d[1]: hit.add(d)
            for d in sorted(hit, reverse=True):
                new = sorry(text[d[0]:d[1]])
                if new == text[d[0]:d[1]]:  # the statement itself does not compile: drop it
                    new = ''
                if new is None and d[2] in ('/--', '/-!'):  # the comment of a declaration that was dropped
                    text = text[:d[0]] + text[d[1]:]
                    changed = True
                    continue
                nm = d[3] if d[3] != 'example' else 'example@%s' % os.path.basename(file)
                if nm not in broken: broken.append(nm)
                if new is None:
                    return {'error': 'cannot patch %s in %s: %s' % (d, file, errs[:2])}
                text = text[:d[0]] + new + text[d[1]:]
                changed = True
            open(path, 'w').write(text)
        if not changed:
            return {'error': 'stuck: %s' % errs[:3]}
    # which property theorems depend on a sorry
    names = []
    for fn in sorted(os.listdir(DST + '/Verif/Props')):
        if targets and 'Verif.Props.' + fn[:-5] not in targets: continue
        s = open(DST + '/Verif/Props/' + fn).read()
        names += re.findall(r'^theorem (C\d+_\S+)', s, re.M)
    open(DST + '/Ax.lean', 'w').write(''.join('import %s\n' % m for m in targets or ['Verif']) + ''.join('#print axioms Razorback.Props.%s\n' % n for n in names))
    p = subprocess.run(['lake', 'env', 'lean', 'Ax.lean'], cwd=DST, capture_output=True, text=True)
    dep = re.findall(r"'Razorback\.Props\.(C\d+_[^']*)' depends on axioms: \[[^\]]*sorryAx", p.stdout)
    os.remove(DST + '/Ax.lean')
    return {'broken': broken, 'props': dep}

if __name__ == '__main__':
    sync()
    for mut in json.load(open(sys.argv[1])):
        r = run(mut)
        sync_sources()
        if 'error' in r:
            print(mut['definition'], '| ERROR |', mut['edit'], '|', r['error'], flush=True); continue
        print(mut['definition'], '|', mut['edit'], '| props:', r['props'], '| direct:', r['broken'], flush=True)
        with open(LOG, 'a') as fh:
            fh.write(json.dumps({'definition': mut['definition'], 'edit': mut['edit'], 'claim_broken': mut['claim'],
                'theorems_failed': r['props'], 'proofs_failed_directly': r['broken'], 'theorems_tightened': mut.get('tightened', [])}, ensure_ascii=False) + '\n')
