#!/usr/bin/env python3
"""Regenerates MANIFEST.json and lean/Verif.lean from the sources.

A property is `proved` when it has theorems `Cnn_...` and none of them is `_partial` or `_violated`;
otherwise it is `partial`.  Notes come from tools/notes.json."""
import json, os, re, glob
root = os.path.join(os.path.dirname(os.path.abspath(__file__)), '..')
lean = os.path.join(root, 'lean')
mods = sorted(os.path.relpath(f, lean)[:-5].replace('/', '.') for f in glob.glob(lean + '/Verif/**/*.lean', recursive=True))
with open(lean + '/Verif.lean', 'w') as f:
    f.write(''.join('import %s\n' % m for m in mods))
thms = {}
for m in mods:
    if not m.startswith('Verif.Props'):
        continue
    ns = []
    for line in open(os.path.join(lean, m.replace('.', '/') + '.lean')):
        g = re.match(r'namespace (\S+)', line)
        if g: ns.append(g.group(1))
        g = re.match(r'end (\S+)', line)
        if g and ns and ns[-1] == g.group(1): ns.pop()
        g = re.match(r'(?:@\[[^\]]*\] )?theorem ((C\d\d+)_\S+)', line)
        if g: thms.setdefault(g.group(2), []).append('.'.join(ns + [g.group(1)]))
notes = json.load(open(os.path.join(root, 'tools', 'notes.json')))
props = [json.loads(l) for l in open(os.path.join(root, 'properties.jsonl'))]
claims = []
for p in props:
    t = thms.get(p['id'], [])
    if not t:
        print('no theorem for', p['id'])
        continue
    bad = [x for x in t if x.endswith('_partial') or x.endswith('_violated')]
    st = 'partial' if bad else 'proved'
    if bad and not notes.get(p['id']):
        print('missing note', p['id'])
    claims.append(dict(property=p['id'], status=st, theorems=t, note=notes.get(p['id'], '')))
for k in sorted(set(thms) - {p['id'] for p in props}): print('unknown property', k)
json.dump({'claims': claims}, open(os.path.join(root, 'MANIFEST.json'), 'w'), indent=1)
print(len(claims), 'claims', sum(c['status'] == 'proved' for c in claims), 'proved')
