#!/usr/bin/env python3
"""Mutation testing of the model.  usage: mutate.py batch.json
batch: list of {file, definition, old, new, claim, [tightened]}.  Works in /tmp/mut, appends to
seeded/LOG.jsonl.  'old' must occur in the file; the first occurrence after the definition's name is
replaced (or the first occurrence when definition is not found)."""
import json,os,re,subprocess,sys,shutil
V='/verif'; M='/tmp/mut/lean'
os.makedirs('/tmp/mut',exist_ok=True)
subprocess.run(['rsync','-a','--delete',V+'/lean/',M+'/'],check=False) if shutil.which('rsync') else subprocess.run('rm -rf %s && cp -a %s/lean %s'%(M,V,M),shell=True,check=True)
def name_at(path,line):
    ls=open(path).read().split('\n')
    for i in range(min(line,len(ls))-1,-1,-1):
        m=re.match(r'\s*(?:@\[[^\]]*\]\s*)?(?:private\s+)?(theorem|lemma|def|example|instance|structure)\s*([^\s:({\[]*)',ls[i])
        if m: return m.group(2) or 'example@%s:%d'%(os.path.basename(path),i+1)
    return '?'
for b in json.load(open(sys.argv[1])):
    p=M+'/Verif/'+b['file']; src=open(p).read()
    d=re.search(r'def\s+'+re.escape(b['definition'])+r'\b',src)
    st=d.start() if d else 0
    i=src.find(b['old'],st)
    if i<0: print('NOT FOUND',b['definition'],b['old']); continue
    open(p,'w').write(src[:i]+b['new']+src[i+len(b['old']):])
    r=subprocess.run('lake build',shell=True,cwd=M,capture_output=True,text=True)
    out=r.stdout+r.stderr
    failed=[]
    for m in re.finditer(r'error: (Verif/\S+\.lean):(\d+):\d+',out):
        n=name_at(M+'/'+m.group(1),int(m.group(2)))
        if n not in failed: failed.append(n)
    open(p,'w').write(src)
    surv = r.returncode==0
    e={"definition":b['definition'],"file":"lean/Verif/"+b['file'],"edit":"%s  ->  %s"%(b['old'],b['new']),"claim_broken":b['claim'],"theorems_failed":failed,"survived":surv,"theorems_tightened":b.get('tightened',[]) }
    if b.get('note'): e['note']=b['note']
    open(V+'/seeded/LOG.jsonl','a').write(json.dumps(e)+'\n')
    print('SURVIVED' if surv else 'killed  ',b['definition'],'|',b['old'],'->',b['new'],'|',failed[:5])
subprocess.run('lake build >/dev/null 2>&1',shell=True,cwd=M)
