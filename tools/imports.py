#!/usr/bin/env python3
"""Regenerates lean/Verif.lean from the files under lean/Verif."""
import os
R = os.path.join(os.path.dirname(os.path.dirname(os.path.abspath(__file__))), 'lean')
os.chdir(R)
mods = sorted((r + '/' + x)[:-5].replace('/', '.') for r, d, f in os.walk('Verif') for x in f if x.endswith('.lean'))
open('Verif.lean', 'w').write(''.join(f'import {m}\n' for m in mods))
