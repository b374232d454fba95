"""Writes AXIOMS.md: the axioms every theorem of MANIFEST.json depends on (run after lake build)."""
import json, os, re, subprocess, tempfile
root = os.path.join(os.path.dirname(os.path.abspath(__file__)), '..')
man = json.load(open(os.path.join(root, 'MANIFEST.json')))
names = [(c['property'], t) for c in man['claims'] for t in c['theorems']]
with tempfile.NamedTemporaryFile('w', suffix='.lean', delete=False) as f:
    f.write('import Verif\n' + ''.join('#print axioms %s\n' % t for _, t in names))
out = subprocess.run(['lake', 'env', 'lean', f.name], cwd=os.path.join(root, 'lean'), capture_output=True, text=True).stdout
ax = {}
for m in re.finditer(r"'([^']+)' (?:depends on axioms: \[([^\]]*)\]|does not depend on any axioms)", out):
    ax[m.group(1)] = ' '.join((m.group(2) or '').split()) or 'none'
with open(os.path.join(root, 'AXIOMS.md'), 'w') as g:
    g.write('# Axioms of the property theorems\n\nGenerated by `tools/axioms.py` (`#print axioms`).\n\n| property | theorem | axioms |\n|---|---|---|\n')
    for p, t in names:
        g.write('| %s | `%s` | %s |\n' % (p, t, ax.get(t, '?')))
print(len(names), sorted(set(ax.values())), [t for _, t in names if t not in ax][:5])
