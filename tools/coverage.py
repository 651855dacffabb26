#!/usr/bin/env python3
"""Writes the table "file of /repo -> modules that model it" into DESIGN.md from the citations in the model."""
import re,glob,os,collections
cov=collections.defaultdict(lambda: collections.defaultdict(set))
for f in sorted(glob.glob('lean/Verif/Model/*.lean')+glob.glob('lean/Verif/Spec/*.lean')):
    t=open(f).read(); mod=f.split('Verif/')[1][:-5].replace('Model/','')
    for c in re.findall(r'/--.*?-/|/-!.*?-/|--[^\n]*',t,re.S):
        for m in re.finditer(r'(\w+)\.go:((?:\s*\d+(?:-\d+)?(?:,\s*)?)+)',c):
            for r in re.findall(r'\d+(?:-\d+)?',m.group(2)):
                a,*b=r.split('-'); b=int(b[0]) if b else int(a)
                for x in range(int(a),b+1): cov[m.group(1)][x].add(mod)
rows=[]
for f in sorted(glob.glob('/repo/**/*.go',recursive=True)):
    n=os.path.basename(f)[:-3]
    if n.endswith('_test') or n=='doc': continue
    L=re.sub(r'/\*.*?\*/',lambda m:'\n'*m.group(0).count('\n'),open(f).read(),flags=re.S).split('\n'); mods=collections.Counter(); un=[]; tot=0
    for i,l in enumerate(L,1):
        if l.startswith('func '):
            tot+=1
            if not (cov[n].get(i,set())|cov[n].get(i+1,set())):
                un.append(re.match(r'func (?:\(([^)]*)\) )?(\w+)',l).group(2))
        for md in cov[n].get(i,()): mods[md]+=1
    rows.append('| %s | %d | %s | %s |'%(os.path.relpath(f,'/repo'),tot,', '.join(m for m,_ in sorted(mods.items(),key=lambda x:(-x[1],x[0]))) or '-', ', '.join(sorted(set(un))) or '-'))
tab='| file | functions | modules (most lines first) | functions with no citation of their own |\n|---|---|---|---|\n'+'\n'.join(rows)+'\n'
p='DESIGN.md'; s=open(p).read()
a='<!-- coverage -->\n'; b='<!-- /coverage -->\n'
i=s.index(a)+len(a); j=s.index(b)
open(p,'w').write(s[:i]+tab+s[j:])
