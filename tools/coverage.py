"""Which functions of /repo/src are cited by a definition of the model."""
import re,glob
cites={}
for f in glob.glob('/verif/lean/Verif/Model/*.lean'):
    txt=open(f).read()
    for m in re.finditer(r'(\w+)\.rs:((?:\d+(?:-\d+)?(?:`?, ?`?)?)+)',txt):
        for r in re.findall(r'(\d+)(?:-(\d+))?',m.group(2)):
            a=int(r[0]); b=int(r[1] or a)
            cites.setdefault(m.group(1),[]).append((a,b))
miss=[]; tot=0
for f in sorted(glob.glob('/repo/src/*.rs')):
    n=f.split('/')[-1][:-3]
    L=open(f).read().split('\n')
    for i,l in enumerate(L,1):
        if re.match(r'\s*(mod tests?\b|#\[cfg\(test\)\])',l) : break
        m=re.match(r'\s*(?:pub(?:\(crate\))? )?fn (\w+)',l)
        if m:
            tot+=1
            if not any(a<=i<=b or (i<=a<=i+12) and False or (a-1<=i<=b) for a,b in cites.get(n,[])):
                miss.append(f'{n}.rs:{i} {m.group(1)}')
print(tot,len(miss)); print('\n'.join(miss))
