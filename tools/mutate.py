#!/usr/bin/env python3
"""Seeded-bug runner. Reads a JSON list of mutations
  {"file": path under lean/, "def": name, "old": text, "new": text, "claim": text}
applies each in a scratch copy outside /verif, rebuilds, prints the theorems with errors and
appends one line per mutation to seeded/LOG.jsonl (unless --dry)."""
import json, subprocess, sys, os, re, shutil
ROOT = os.path.dirname(os.path.dirname(os.path.abspath(__file__)))
SCRATCH = '/tmp/mut'
def sync():
    os.makedirs(SCRATCH, exist_ok=True)
    subprocess.run(['rsync', '-a', '--delete', ROOT + '/lean/', SCRATCH + '/'], check=False) if shutil.which('rsync') else (
        shutil.rmtree(SCRATCH, ignore_errors=True), shutil.copytree(ROOT + '/lean', SCRATCH, symlinks=True))
DECL = re.compile(r'^\s*(?:@\[[^\]]*\]\s*)?(?:private |protected |noncomputable )*(theorem|lemma|def|example|inductive|structure|instance|abbrev)\b\s*([^\s:({\[]*)')
def enclosing(path, line):
    ns = []
    name = '?'
    for i, l in enumerate(open(path), 1):
        if i > line: break
        m = re.match(r'^namespace (\S+)', l)
        if m: ns.append(m.group(1))
        m = re.match(r'^end (\S+)', l)
        if m and ns and ns[-1] == m.group(1): ns.pop()
        m = DECL.match(l)
        if m: name = '.'.join(ns + [m.group(2)]) if m.group(1) != 'example' else '.'.join(ns) + ' example at line %d' % i
    return name
def run(m):
    p = os.path.join(SCRATCH, m['file'])
    src = open(p).read()
    edits = m['edits'] if 'edits' in m else [[m['old'], m['new']]]
    new = src
    for o, n in edits:
        if new.count(o) != 1:
            print('!! pattern count', new.count(o), m['def'], repr(o)[:60]); return None
        new = new.replace(o, n)
    open(p, 'w').write(new)
    out = subprocess.run(['lake', 'build'], cwd=SCRATCH, capture_output=True, text=True)
    txt = out.stdout + out.stderr
    failed = []
    for f, ln in re.findall(r'error: (Verif/\S+?):(\d+):\d+', txt):
        n = enclosing(os.path.join(SCRATCH, f), int(ln))
        if n not in failed: failed.append(n)
    bad = re.findall(r'^- (Verif\S*)', txt, re.M)
    open(p, 'w').write(src)
    return failed, bad, out.returncode
if __name__ == '__main__':
    dry = '--dry' in sys.argv
    muts = json.load(open([a for a in sys.argv[1:] if not a.startswith('--')][0]))
    sync()
    for m in muts:
        r = run(m)
        if r is None: continue
        failed, bad, rc = r
        print(('KILLED  ' if rc else 'SURVIVED'), m['def'], '|', m.get('edit', ''), '|', failed[:6])
        if not dry:
            with open(ROOT + '/seeded/LOG.jsonl', 'a') as f:
                f.write(json.dumps({"definition": m['def'], "edit": m.get('edit') or "; ".join(o + ' -> ' + n for o, n in (m.get('edits') or [[m['old'], m['new']]])),
                    "claim": m['claim'], "failed": failed, "tightened": m.get('tightened', [])}, ensure_ascii=False) + '\n')
