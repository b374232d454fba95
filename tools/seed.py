"""Seeded-bug testing.  Usage: seed.py WORKDIR BATCH.json

WORKDIR is a scratch copy of /verif/lean with its build output.  BATCH is a list of
{"file", "old", "new", "definition", "edit", "claim"}; every edit is applied to the scratch copy alone, the project is rebuilt and
the declarations with errors are collected.  One line per attempt is appended to WORKDIR/out.jsonl.
"""
import json, os, re, subprocess, sys, time

work, batch = sys.argv[1], sys.argv[2]
DECL = re.compile(r'^(?:@\[[^\]]*\]\s*)?(?:private |protected |noncomputable )*(theorem|lemma|def|abbrev|instance|example|structure|inductive)\b\s*(\S*)')


def decl_at(path, line):
    lines = open(path).read().split('\n')
    for i in range(min(line, len(lines)) - 1, -1, -1):
        m = DECL.match(lines[i])
        if m:
            name = m.group(2)
            if m.group(1) == 'example':
                # name the theorem it belongs to
                for j in range(i - 1, -1, -1):
                    k = DECL.match(lines[j])
                    if k and k.group(1) == 'theorem':
                        return 'example after ' + k.group(2)
                return 'example'
            return name
    return '?'


def build():
    p = subprocess.run(['timeout', '1500', 'lake', 'build'], cwd=work, capture_output=True, text=True)
    out = p.stdout + p.stderr
    failed, modules = [], []
    for m in re.finditer(r'error: (Verif\S*\.lean):(\d+):\d+:', out):
        d = decl_at(os.path.join(work, m.group(1)), int(m.group(2)))
        if d not in failed:
            failed.append(d)
    for m in re.finditer(r'^- (Verif\S*)$', out, re.M):
        modules.append(m.group(1))
    return p.returncode, failed, modules, out


for mut in json.load(open(batch)):
    path = os.path.join(work, 'Verif', mut['file'])
    src = open(path).read()
    n = src.count(mut['old'])
    res = dict(mut)
    t = time.time()
    if n != 1:
        res['result'] = 'pattern found %d times' % n
    else:
        open(path, 'w').write(src.replace(mut['old'], mut['new']))
        try:
            rc, failed, modules, out = build()
        finally:
            open(path, 'w').write(src)
        res['result'] = 'survived' if rc == 0 else 'killed'
        if rc and not failed:
            res['result'] = 'no declaration: ' + out[-600:]
        res['failed'], res['modules'] = failed, modules
    res['seconds'] = round(time.time() - t)
    with open(os.path.join(work, 'out.jsonl'), 'a') as f:
        f.write(json.dumps(res) + '\n')
    print(mut['definition'], '|', mut['edit'], '->', res['result'], res.get('failed'), res['seconds'], flush=True)
