#!/usr/bin/env python3
"""Regenerate /verif/AXIOMS.txt: the axioms each manifest theorem depends on (run after `lake build`)."""
import json, re, subprocess, tempfile, os
root = os.path.dirname(os.path.dirname(os.path.abspath(__file__)))
ts = [t for c in json.load(open(root + '/MANIFEST.json'))['claims'] for t in c['theorems']]
with tempfile.NamedTemporaryFile('w', suffix='.lean', delete=False) as f:
    f.write('import Verif\n' + ''.join('#print axioms %s\n' % t for t in ts))
out = subprocess.run(['lake', 'env', 'lean', f.name], cwd=root + '/lean', capture_output=True, text=True).stdout
out = re.sub(r'\n\s+', ' ', out)
with open(root + '/AXIOMS.txt', 'w') as g:
    for l in out.splitlines():
        m = re.match(r"'(\S+)' (depends on axioms: \[(.*)\]|does not depend on any axioms)", l)
        g.write('%s: %s\n' % (m.group(1), m.group(3) or 'none') if m else 'UNPARSED ' + l + '\n')
