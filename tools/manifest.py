#!/usr/bin/env python3
"""Writes MANIFEST.json and AXIOMS.txt (axioms of every theorem named in the manifest).
Usage: tools/manifest.py [--axioms]"""
import json, subprocess, sys, os, re
ROOT = os.path.dirname(os.path.dirname(os.path.abspath(__file__)))
claims = json.load(open(os.path.join(ROOT, 'tools', 'claims.json')))
json.dump({"claims": claims}, open(os.path.join(ROOT, 'MANIFEST.json'), 'w'), indent=1, ensure_ascii=False)
names = [t for c in claims for t in c['theorems']]
if '--axioms' in sys.argv:
    src = "import Verif\n" + "".join(f"#print axioms {n}\n" for n in names)
    tmp = '/tmp/axioms_check.lean'
    open(tmp, 'w').write(src)
    out = subprocess.run(['lake', 'env', 'lean', tmp], cwd=os.path.join(ROOT, 'lean'), capture_output=True, text=True)
    txt = out.stdout + out.stderr
    txt = re.sub(r'\n\s+', ' ', txt)
    open(os.path.join(ROOT, 'AXIOMS.txt'), 'w').write(txt)
    bad = [l for l in txt.splitlines() if 'error' in l or 'sorryAx' in l or 'ofReduce' in l]
    print(len(names), 'theorems;', 'BAD:' if bad else 'ok', bad)
