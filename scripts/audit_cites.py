"""For each citation `File l.a-b` in a definition's comment print the first and last cited source lines."""
import re,glob,sys,os
src={}
for r,_,fs in os.walk('/repo/src/odc'):
    for f in fs:
        if f.endswith(('.h','.cc')): src.setdefault(f,[]).append(os.path.join(r,f))
def find(name):
    base=name.split('/')[-1]
    c=src.get(base,[])
    if '/' in name: c=[p for p in c if p.endswith('/'+name)] or c
    return c
for mod in sys.argv[1:]:
    txt=open(f'/verif/lean/Verif/{mod}.lean').read()
    for m in re.finditer(r'/--(.*?)-/\s*(?:@\[.*?\]\s*)?(?:def|structure|inductive|abbrev)\s+(\S+)',txt,re.S):
        doc=' '.join(m.group(1).split()); nm=m.group(2)
        cur=None
        for t in re.finditer(r'([\w/]+\.(?:h|cc))|l\.\s?([~≈]?\d+(?:-\d+)?(?:,\s?\d+(?:-\d+)?)*)',doc):
            if t.group(1): cur=t.group(1); continue
            for rng in t.group(2).split(','):
                rng=rng.strip().lstrip('~≈')
                a,b=(rng.split('-')+[rng])[:2]
                a,b=int(a),int(b)
                if cur is None: print(mod,nm,'NOFILE',rng); continue
                ps=find(cur)
                if not ps: print(mod,nm,'MISSING',cur); continue
                ls=open(ps[0]).read().split('\n')
                g=lambda i: ls[i-1].strip()[:60] if 0<i<=len(ls) else '<<OUT>>'
                print(f'{mod}.{nm} {cur} {a}-{b} | {g(a)} | {g(b)}')
