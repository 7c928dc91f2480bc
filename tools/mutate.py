#!/usr/bin/env python3
"""Try the theorems against wrong programs.

usage: mutate.py MUTATIONS.py SCRATCH [id ...]

SCRATCH is a copy of /verif/lean (with its .lake) outside /verif. MUTATIONS.py has a list M of dicts with the keys
id, file, definition, old, new, edit, claim (what becomes false; property ids). For every mutation the edit is made in the
scratch copy, and the whole project is rebuilt. Declarations that fail are given the proof `sorry`, until everything
builds; then the theorems that depend on `sorry` are those that the edit breaks. One line of JSON per mutation goes to
/tmp/mutants.jsonl.
"""
import json, os, re, subprocess, sys, importlib.util, shutil, time

MAN = json.load(open('/verif/MANIFEST.json'))
CLAIMS = {c['property']: c['theorems'] for c in MAN['claims']}
DECL = re.compile(r'^(?:@\[[^\]]*\]\s*)?(?:private |protected |noncomputable )*(theorem|lemma|example|def|abbrev|instance|inductive|structure|macro)\b')

def sh(cmd, cwd):
    p = subprocess.run(cmd, cwd=cwd, shell=True, capture_output=True, text=True)
    return p.stdout + p.stderr

def decl_at(lines, n):
    i = n - 1
    while i >= 0 and not DECL.match(lines[i]):
        i -= 1
    return i

def decl_end(lines, i):
    j = i + 1
    while j < len(lines) and not (DECL.match(lines[j]) or lines[j].startswith(('/--', '/-!', 'end ', 'end\n', 'mutual', 'section', 'namespace', 'set_option', 'open ', 'variable', 'include', 'omit', 'attribute', '/-'))):
        j += 1
    while j > i + 1 and lines[j-1].strip() == '':
        j -= 1
    return j

def sorrify(text):
    depth = 0
    k = 0
    while k < len(text):
        ch = text[k]
        lit = re.match(r"'(?:[^\\'\n]|\\.)'", text[k:])
        if lit and not (k > 0 and (text[k-1].isalnum() or text[k-1] == '_')):
            k += lit.end(); continue
        lit = re.match(r'"(?:[^"\\]|\\.)*"', text[k:], re.S)
        if lit:
            k += lit.end(); continue
        if ch in '([{⟨': depth += 1
        elif ch in ')]}⟩': depth -= 1
        elif depth == 0 and text.startswith(':=', k):
            return text[:k] + ':= by sorry\n'
        elif depth == 0 and text.startswith('\n  | ', k):
            return text[:k] + ' := by sorry\n'
        elif depth == 0 and re.match(r'\bwhere\b', text[k:]) and not text[k-1].isalnum():
            return text[:k] + ':= by sorry\n'
        k += 1
    return None

def run(m, scratch):
    f = os.path.join(scratch, m['file'])
    src = open(f).read()
    if src.count(m['old']) != 1:
        return dict(m, status='bad edit: %d matches' % src.count(m['old']))
    touched = {f: src}
    open(f, 'w').write(src.replace(m['old'], m['new']))
    direct = []
    status = 'ok'
    try:
        for it in range(40):
            out = sh('lake build', scratch)
            errs = re.findall(r'^error: (Verif/[\w/]+\.lean):(\d+):\d+: (.*)', out, re.M)
            if not errs:
                if 'Build completed successfully' not in out:
                    status = 'build failed: ' + out[-800:]
                break
            byfile = {}
            for p, ln, msg in errs:
                byfile.setdefault(p, set()).add(int(ln))
            stop = False
            for p, lns in byfile.items():
                fp = os.path.join(scratch, p)
                cur = open(fp).read()
                touched.setdefault(fp, cur)
                lines = cur.splitlines(keepends=True)
                starts = sorted({decl_at(lines, n) for n in lns}, reverse=True)
                for i in starts:
                    j = decl_end(lines, i)
                    head = lines[i]
                    kind = DECL.match(head).group(1)
                    name = head.split()[1] if kind != 'example' else 'example'
                    mm = re.match(r'.*?\b(?:theorem|lemma|def|abbrev|instance|inductive|structure)\s+(\S+)', head)
                    if mm and kind != 'example': name = mm.group(1)
                    body = ''.join(lines[i:j])
                    if p.startswith('Verif/Model/') or kind in ('def', 'abbrev', 'instance', 'inductive', 'structure', 'macro'):
                        status = 'definition fails: %s %s: %s' % (p, name, [e for e in errs if e[0] == p][:3]); stop = True; break
                    direct.append('%s:%s' % (p[6:-5], name if kind != 'example' else 'example at line %d' % (i+1)))
                    if 'by sorry' in body and kind != 'example':
                        a = i
                        while a >= 0 and lines[a].strip() not in ('mutual', 'end'): a -= 1
                        if a >= 0 and lines[a].strip() == 'mutual':
                            # the other theorems of the block
                            b = i
                            while lines[b].strip() != 'end': b += 1
                            again = False
                            for q in range(b - 1, a, -1):
                                if DECL.match(lines[q]) and 'by sorry' not in ''.join(lines[q:decl_end(lines, q)]):
                                    e = decl_end(lines, q)
                                    lines[q:e] = [sorrify(''.join(lines[q:e]))]
                                    again = True
                            if again: break
                        status = 'statement fails: %s %s' % (p, name); stop = True; break
                    new = '' if kind == 'example' else sorrify(body)
                    if new is None:
                        status = 'cannot sorrify %s %s' % (p, name); stop = True; break
                    if kind == 'example':
                        # keep line count
                        lines[i:j] = ['\n'] * (j - i)
                        k = i - 1
                        while k >= 0 and lines[k].strip() == '': k -= 1
                        if k >= 0 and lines[k].rstrip().endswith('-/'):
                            q = k
                            while q >= 0 and not lines[q].startswith('/--') and not lines[q].startswith('/-!') and not lines[q].startswith('/-'): q -= 1
                            if q >= 0 and lines[q].startswith('/--'):
                                for z in range(q, k + 1): lines[z] = '\n'
                    else:
                        nl = new.count('\n')
                        lines[i:j] = [new] + ['\n'] * 0
                if stop: break
                open(fp, 'w').write(''.join(lines))
            if stop: break
        # which theorems depend on sorry
        broken = []
        if status == 'ok':
            names = sorted({t for ts in CLAIMS.values() for t in ts})
            chk = os.path.join(scratch, 'Chk.lean')
            open(chk, 'w').write('import Verif\n' + ''.join('#print axioms %s\n' % n for n in names))
            out = sh('lake env lean Chk.lean', scratch)
            os.remove(chk)
            for mo in re.finditer(r"^'(\S+)' depends on axioms: \[([^\]]*)\]", out, re.M):
                if 'sorryAx' in mo.group(2):
                    broken.append(mo.group(1))
        else:
            broken = []
    finally:
        for p, t in touched.items():
            open(p, 'w').write(t)
    return dict(m, status=status, direct=direct, broken=broken,
                claims_broken=sorted({p for p, ts in CLAIMS.items() if any(t in broken for t in ts)}))

def main():
    spec = importlib.util.spec_from_file_location('muts', sys.argv[1])
    mod = importlib.util.module_from_spec(spec); spec.loader.exec_module(mod)
    scratch = sys.argv[2]
    ids = sys.argv[3:]
    done = set()
    if os.path.exists('/tmp/mutants.jsonl'):
        done = {json.loads(l)['id'] for l in open('/tmp/mutants.jsonl')}
    for m in mod.M:
        if ids and m['id'] not in ids: continue
        if not ids and m['id'] in done: continue
        t = time.time()
        r = run(m, scratch)
        r['wall'] = round(time.time() - t)
        with open('/tmp/mutants.jsonl', 'a') as o:
            o.write(json.dumps(r) + '\n')
        print(m['id'], r['status'], r['wall'], 's', 'direct', len(r.get('direct', [])), 'claims', r.get('claims_broken'), flush=True)

main()
