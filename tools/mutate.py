#!/usr/bin/env python3
"""Apply edits to a scratch copy of the model, rebuild and report which theorems fail.

usage: mutate.py mutations.json results.json
Set MUTSRC to a built snapshot of lean/ to leave the working tree free.  Finished results are kept on restart.
A mutation: {"definition","file","old","new","claim","property"}.  A theorem counts as failed if its own proof
fails or if it uses a declaration whose proof fails; failing declarations are replaced by `sorry` in the scratch
copy so that everything else is still checked.
"""
import json,os,re,subprocess,sys,collections
SRC=os.environ.get('MUTSRC','/verif/lean'); DIR=os.environ.get('MUTDIR','/tmp/scratch/lean')
DECL=re.compile(r'^(?:@\[[^\]]*\]\s*)?(?:private |protected |noncomputable )*(theorem|lemma|def|example|instance|structure|abbrev)\s*(\S*)',re.M)
deps={};mod={}
for l in open('/tmp/mut/deps.tsv'):
    n,m,c=(l.rstrip('\n').split('\t')+[''])[:3]
    deps[n]=set(c.split());mod[n]=m
claims=[t for c in json.load(open(SRC+'/../MANIFEST.json'))['claims'] for t in c['theorems']]
clo={}
def closure(n):
    seen=set();st=[n]
    while st:
        x=st.pop()
        if x in seen: continue
        seen.add(x); st.extend(deps.get(x,()))
    return seen
C={t:closure(t) for t in claims}
def short(n): return n.split('.')[-1]
from concurrent.futures import ThreadPoolExecutor
import shutil
LIB='/tmp/scratch/lib'          # private copy of the project's oleans
ORIG=SRC+'/.lake/build/lib/lean'
PATHS=subprocess.run(['lake','env','printenv','LEAN_PATH'],cwd='/verif/lean',capture_output=True,text=True).stdout.strip().split(':')[1:]
FAST=os.environ.get('MUTFAST')  # stop at the first module in which a listed theorem fails
mods=sorted(set(mod.values()))
def path(m): return m.replace('.','/')
def imports(m): return re.findall(r'^import (Verif\.\S+)',open(f'{SRC}/{path(m)}.lean').read(),re.M)
IMP={m:imports(m) for m in mods}
def sync():
    if os.path.exists(DIR): shutil.rmtree(DIR)
    shutil.copytree(SRC,DIR,ignore=shutil.ignore_patterns('.lake'))
def fresh():
    if os.path.exists(LIB): shutil.rmtree(LIB)
    shutil.copytree(ORIG,LIB,ignore=shutil.ignore_patterns('*.trace','*.hash','*.ilean'))
def compile1(m):
    env=dict(os.environ,LEAN_PATH=':'.join([LIB]+PATHS))
    o=f'{LIB}/{path(m)}.olean'
    r=subprocess.run(['lean','-o',o,f'{path(m)}.lean'],cwd=DIR,capture_output=True,text=True,env=env,timeout=2400)
    errs=[(int(x.group(1)),x.group(2)) for x in re.finditer(r'^Verif/\S+?\.lean:(\d+):\d+: error(?:\([^)]*\))?: (.*)$',r.stdout+r.stderr,re.M)]
    return r.returncode,errs,r.stdout+r.stderr
def decls(src):
    lines=src.split('\n'); L=[]
    for i,l in enumerate(lines):
        m=DECL.match(l)
        if m: L.append((i,m.group(1),m.group(2)))
    return lines,L
def proofpos(text):
    depth=0;i=0;first=None
    while i<len(text):
        ch=text[i]
        if ch in '([{⟨': depth+=1
        elif ch in ')]}⟩': depth-=1
        elif text.startswith(':=',i) and depth==0:
            if re.match(r':= by\b',text[i:]): return i
            if first is None: first=i
        i+=1
    return first
def patch(f,errlines):
    """replace failing declarations by sorry, return their (kind,name)"""
    p=os.path.join(DIR,f); src=open(p).read(); lines,L=decls(src)
    bad=set()
    for e in errlines:
        k=[j for j,(i,_,_) in enumerate(L) if i<=e-1]
        # error positions on doc comments belong to the next declaration
        if k: bad.add(k[-1])
    out=[]
    for j in sorted(bad,reverse=True):
        i,kind,name=L[j]; end=L[j+1][0] if j+1<len(L) else len(lines)
        # keep trailing comments/section commands after the declaration
        k=i+1
        while k<end and (lines[k].startswith(' ') or lines[k].strip()=='' ): k+=1
        text='\n'.join(lines[i:k])
        out.append((kind,name,i+1))
        if kind=='example': new='example : True := trivial\n'
        else:
            q=proofpos(text)
            new=text[:q]+':= by sorry\n' if q is not None else text
        lines[i:k]=new.split('\n')
    open(p,'w').write('\n'.join(lines))
    return out
def run(m,workers=int(os.environ.get('MUTJ','3'))):
    sync()
    p=os.path.join(DIR,m['file']); s=open(p).read()
    assert s.count(m['old'])==1,('old not unique',s.count(m['old']),m['old'])
    open(p,'w').write(s.replace(m['old'],m['new']))
    d=m['definition']
    isd=lambda x: x==d or x.endswith('.'+d)
    rev=collections.defaultdict(set)
    for a,bs in deps.items():
        for b in bs: rev[b].add(a)
    aff=set();st=[x for x in deps if isd(x)]
    assert st,'unknown definition'
    while st:
        x=st.pop()
        if x in aff: continue
        aff.add(x); st.extend(rev[x])
    start=m['file'][:-5].replace('/','.')
    todo={mod[x] for x in aff}|{start}
    todo.discard('Verif.Audit')
    done=set();failed=[];fex=[];other=[];touched=set()
    reach={}
    def need(a):
        if a not in reach:
            r=set()
            for b in IMP.get(a,[]): r|={b}|need(b)
            reach[a]=r
        return reach[a]
    def work(a):
        seen=set();f=[];e=[];o=[]
        for it in range(12):
            rc,errs,out=compile1(a)
            if rc==0: break
            if not errs: o.append('no error lines: '+out[-300:]); break
            prog=False
            for kind,name,line in patch(path(a)+'.lean',[l for l,_ in errs]):
                key=(kind,name if name else line)
                if key not in seen: prog=True
                seen.add(key)
                if kind=='example': e.append(f'{a}:{line}')
                elif kind in('theorem','lemma','instance'): f.append(name)
                else: o.append(f'{a} {kind} {name}: {errs[0][1][:120]}')
            if not prog: o.append(f'stuck {a}: {errs[:2]}'); break
        return a,f,e,o
    with ThreadPoolExecutor(workers) as ex:
        running={}
        pending=set(todo)
        while pending or running:
            for a in sorted(pending):
                if not (need(a)&(pending|set(running))) and len(running)<workers:
                    running[a]=ex.submit(work,a)
            pending-=set(running)
            import concurrent.futures as cf
            dn,_=cf.wait(list(running.values()),return_when=cf.FIRST_COMPLETED)
            for q in dn:
                a,f,e,o=q.result(); failed+=f; fex+=e; other+=o; touched.add(a); del running[a]
                if FAST and (o or any(x==g or x.endswith('.'+g) for t in claims for x in C[t] for g in f)): pending=set()
    for a in touched: shutil.copy(f'{ORIG}/{path(a)}.olean',f'{LIB}/{path(a)}.olean')
    fs=set(failed)
    killed=sorted(short(t) for t in claims if any(x==f or x.endswith('.'+f) for x in C[t] for f in fs))
    surv=sorted(short(t) for t in claims if t in aff and short(t) not in killed)
    return {**m,'failed_decls':sorted(fs),'failed_examples':fex,'killed':killed,'survivors':surv,'other':other,'fast':bool(FAST)}
if __name__=='__main__':
    fresh()
    ms=json.load(open(sys.argv[1])); res=json.load(open(sys.argv[2])) if os.path.exists(sys.argv[2]) else []
    ms=ms[len(res):]
    for m in ms:
        try: r=run(m)
        except Exception as e: r={**m,'exception':repr(e)}
        res.append(r); json.dump(res,open(sys.argv[2],'w'),indent=1,ensure_ascii=False)
        print(m['definition'],'|',m['new'][:70].replace('\n',' '),'| killed',r.get('killed'),'| survive',r.get('survivors'),'| ex',len(r.get('failed_examples',[])),'| other',r.get('other'),r.get('exception',''),flush=True)
    sync()
