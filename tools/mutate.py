#!/usr/bin/env python3
"""Seeded-bug runner. usage: mutate.py mutants.json
Each mutant: {"definition","file","old","new","edit","claim"}; works in a scratch copy /tmp/mut, appends to seeded/LOG.jsonl.
'theorems_failed' lists the manifest theorems that fail or whose proof uses a declaration that fails."""
import json,os,re,subprocess,sys,shutil
S='/verif/lean'; T='/tmp/mut'
subprocess.run(['rsync','-a','--delete',S+'/',T+'/'],check=True) if shutil.which('rsync') else (shutil.rmtree(T,ignore_errors=True),shutil.copytree(S,T,symlinks=True))
deps={}
for l in open('/tmp/mutwork/deps.txt'):
    n,_,u=l.rstrip('\n').partition('\t'); deps[n]=set(u.split())
def closure(n):
    seen=set(); st=[n]
    while st:
        x=st.pop()
        if x in seen: continue
        seen.add(x); st+=deps.get(x,())
    return seen
man=[t for c in json.load(open('/verif/MANIFEST.json'))['claims'] for t in c['theorems']]
clo={t:closure(t) for t in man}
def decl_at(f,line):
    src=open(f).read().split('\n')
    for i in range(min(line,len(src))-1,-1,-1):
        m=re.match(r'(?:@\[.*?\]\s*)?(?:private |protected |noncomputable )*(theorem|def|lemma|example|instance|abbrev|structure|inductive)\b\s*([^\s:({\[]*)',src[i])
        if m: return (m.group(2) or 'example@%s:%d'%(os.path.basename(f),i+1))
    return '?'
res=[]
for m in json.load(open(sys.argv[1])):
    f=f"{T}/{m['file']}"; src=open(f).read()
    if src.count(m['old'])!=1: print('BAD PATTERN',m['definition'],src.count(m['old'])); continue
    open(f,'w').write(src.replace(m['old'],m['new']))
    r=subprocess.run(['lake','build'],cwd=T,capture_output=True,text=True); out=r.stdout+r.stderr
    bad=set()
    for g,l in re.findall(r'error: (Verif/\S+?\.lean):(\d+):',out): bad.add(decl_at(f'{T}/{g}',int(l)))
    open(f,'w').write(src)
    if r.returncode and not bad: print('BUILD PROBLEM',m['definition'],m['edit'],out[-300:]); continue
    full=set()
    for b in bad:
        full|={d for d in deps if d==b or d.endswith('.'+b)}
    failed=sorted(t.replace('Verif.Props.','') for t in man if clo[t]&full)
    print(('SURVIVED ' if not bad else 'killed   ')+m['definition'],'|',m['edit'],'| first:',sorted(bad)[:6],'| manifest:',failed[:8],len(failed))
    res.append({"definition":m['definition'],"edit":m['edit'],"claim_broken":m['claim'],"first_failures":sorted(bad),"theorems_failed":failed,"theorems_tightened":m.get('tightened',[]),"survived":not bad})
    if '--log' in sys.argv:
        os.makedirs('/verif/seeded',exist_ok=True)
        with open('/verif/seeded/LOG.jsonl','a') as o: o.write(json.dumps(res[-1])+'\n')
    sys.stdout.flush()
