#!/usr/bin/env python3
"""seed.py MUTATIONS.json : apply each mutation to a scratch copy of /verif/lean, rebuild, log what fails.
A mutation: {"id","file","old","new","def","edit","claim"}.  Results are appended to /verif/seeded/LOG.jsonl."""
import json,sys,subprocess,os,re,shutil
SCR='/tmp/scratch'
os.makedirs(SCR,exist_ok=True)
subprocess.run(['rsync','-a','--delete','/verif/lean/',SCR+'/lean/']) if shutil.which('rsync') else (shutil.rmtree(SCR+'/lean',ignore_errors=True),subprocess.run(['cp','-a','/verif/lean',SCR+'/lean']))
L=SCR+'/lean/'
def decl(path,line):
    ls=open(path).read().split('\n')
    for i in range(min(line,len(ls))-1,-1,-1):
        m=re.match(r'\s*(?:@\[[^\]]*\]\s*)?(?:noncomputable |private |protected )*(theorem|lemma|def|example|instance|structure|abbrev|inductive)\s*(\S*)',ls[i])
        if m: return m.group(2) or m.group(1)
    return '?'
muts=json.load(open(sys.argv[1]))
for m in muts:
    p=L+'Verif/'+m['file']
    s=open(p).read()
    n=s.count(m['old'])
    if n<1: print(m['id'],'OLD NOT FOUND'); continue
    if n>1 and not m.get('nth'): print(m['id'],'AMBIGUOUS',n); continue
    if m.get('nth'):
        parts=s.split(m['old']); k=m['nth']
        t=m['old'].join(parts[:k])+m['new']+m['old'].join(parts[k:])
    else: t=s.replace(m['old'],m['new'])
    open(p,'w').write(t)
    try:
        r=subprocess.run('lake build 2>&1',shell=True,cwd=L,capture_output=True,text=True,timeout=2400).stdout
    except subprocess.TimeoutExpired as e:
        r=''
    fails=[]
    for f,l in re.findall(r'error: (?:\./)?(Verif/\S+?\.lean):(\d+):',r):
        d=decl(L+f,int(l)); 
        if d not in fails: fails.append(d)
    ok='Build completed successfully' in r
    # modules not built
    built=set()
    notbuilt=[]
    if not ok:
        bad=set(re.findall(r'^- (Verif\S*)',r,re.M))
        # dependents: modules whose imports transitively hit bad
        imps={}
        for root,_,fs in os.walk(L+'Verif'):
            for f in fs:
                if f.endswith('.lean'):
                    mod='Verif.'+os.path.relpath(os.path.join(root,f),L+'Verif')[:-5].replace('/','.')
                    imps[mod]=set(re.findall(r'^import (Verif\S*)',open(os.path.join(root,f)).read(),re.M))
        def hits(x,seen):
            if x in bad: return True
            if x in seen: return False
            seen.add(x)
            return any(hits(y,seen) for y in imps.get(x,()))
        notbuilt=sorted(x for x in imps if x not in bad and hits(x,set()))
    e={"id":m['id'],"definition":m['def'],"edit":m['edit'],"claim_broken":m['claim'],"failed":fails,"modules_blocked":notbuilt,"survived":ok,"tightened":m.get('tightened',[])}
    print(m['id'],'SURVIVED' if ok else 'killed',fails[:6],len(notbuilt))
    open('/verif/seeded/LOG.jsonl','a').write(json.dumps(e,ensure_ascii=False)+'\n')
    open(p,'w').write(s)
