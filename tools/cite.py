import re,glob,os
S={os.path.basename(f):open(f,errors='replace').read().split('\n') for f in glob.glob('/repo/*.py')}
for f in sorted(glob.glob('/verif/lean/Verif/Model/*.lean')):
  print('##',os.path.basename(f))
  ls=open(f).read().split('\n')
  for n,l in enumerate(ls):
    for m in re.finditer(r'(\w+\.py):(\d+)(?:[-–](\d+))?',l):
      d=next((x for x in ls[n:n+25] if re.match(r'(@\[.*\] )?(private )?(def|abbrev|structure|inductive|instance|theorem|class)',x)),'')
      d=' '.join(d.split()[:2])
      a=int(m[2]);b=int(m[3] or a)
      src=S[m[1]]
      print(f'{n+1} {d} | {m[1]}:{a}-{b} | {src[a-1].strip()[:70]} … {src[b-1].strip()[:50] if b>a else ""}')
