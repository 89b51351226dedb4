#!/usr/bin/env python3
import re,json,os,glob
os.chdir('/verif/lean')
mods=[]
for d in ('Model','Spec','Lemmas','Props'):
    for f in sorted(glob.glob(f'Verif/{d}/*.lean')):
        mods.append(f[:-5].replace('/','.'))
if os.path.exists('Verif/Audit.lean'): mods.append('Verif.Audit')
open('Verif.lean','w').write(''.join(f'import {m}\n' for m in mods))
thms={}
for f in sorted(glob.glob('Verif/Props/*.lean')):
    ns=None
    src=open(f).read()
    m=re.search(r'^namespace (\S+)',src,re.M); ns=m.group(1)
    for m in re.finditer(r'^(?:theorem|lemma) (C(\d\d+)_\S+)',src,re.M):
        ns=re.findall(r'^namespace (\S+)',src[:m.start()],re.M)[-1]
        thms.setdefault('C'+m.group(2),[]).append(ns+'.'+m.group(1))
notes=json.load(open('/verif/tools/notes.json')) if os.path.exists('/verif/tools/notes.json') else {}
claims=[]
for l in open('/verif/properties.jsonl'):
    d=json.loads(l); i=d['id']
    if i in thms:
        n=notes.get(i,{})
        st=n.get('status')
        if st is None:
            st='partial' if any('partial' in t or 'violated' in t for t in thms[i]) else 'proved'
        claims.append({'property':i,'status':st,'theorems':thms[i],'note':n.get('note','')})
json.dump({'claims':claims},open('/verif/MANIFEST.json','w'),indent=1,ensure_ascii=False)
print(len(claims),'claims',sum(len(c['theorems']) for c in claims),'theorems')
# audit
allt=[t for c in claims for t in c['theorems']]
props=[m for m in mods if m.startswith('Verif.Props')]
open('Verif/Audit.lean','w').write(''.join(f'import {m}\n' for m in props)+'\n/-! Axioms of every theorem named in MANIFEST.json (expected: propext, Classical.choice, Quot.sound). -/\n\n'+''.join(f'#print axioms {t}\n' for t in allt))
