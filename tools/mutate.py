#!/usr/bin/env python3
"""Runs seeded-bug experiments: each mutant edits one definition of the model in a scratch copy,
rebuilds, and records which theorems fail.  Usage: mutate.py MUTANTS.json OUT.jsonl [first [last]]"""
import json, subprocess, sys, os, re, shutil, time
src='/verif/lean'; dst='/tmp/mut/lean'
muts=json.load(open(sys.argv[1])); out=sys.argv[2]
lo=int(sys.argv[3]) if len(sys.argv)>3 else 0
hi=int(sys.argv[4]) if len(sys.argv)>4 else len(muts)
os.makedirs('/tmp/mut',exist_ok=True)
subprocess.run(['rsync','-a','--delete',src+'/',dst+'/'],check=True) if shutil.which('rsync') else (shutil.rmtree(dst,ignore_errors=True), subprocess.run(['cp','-a',src,dst],check=True))
def decl_at(path,line):
    L=open(path).read().split('\n')
    for i in range(min(line,len(L))-1,-1,-1):
        m=re.match(r'\s*(?:@\[[^\]]*\]\s*)?(?:private\s+|protected\s+|noncomputable\s+)*(theorem|def|example|instance|structure|lemma|abbrev)\b\s*(\S*)',L[i])
        if m: return (m.group(2) if m.group(1)!='example' else 'example@%s:%d'%(os.path.basename(path),i+1)).rstrip(':')
    return '?'
for n,m in enumerate(muts[lo:hi],lo):
    f=os.path.join(dst,m['file']); orig=open(f).read()
    if orig.count(m['old'])<1: print(n,'PATTERN NOT FOUND',m['def']); continue
    idx=m.get('nth',0); parts=orig.split(m['old'])
    new=m['old'].join(parts[:idx+1])+m['new']+m['old'].join(parts[idx+1:])
    open(f,'w').write(new)
    t=time.time()
    r=subprocess.run(['lake','build'],cwd=dst,capture_output=True,text=True,timeout=3000)
    txt=r.stdout+r.stderr
    errs=[]
    for mm in re.finditer(r'error: (Verif/\S+?\.lean):(\d+):\d+',txt):
        d=mm.group(1)+'#'+decl_at(os.path.join(dst,mm.group(1)),int(mm.group(2)))
        if d not in errs: errs.append(d)
    failed=[x for x in re.findall(r'^✖ \[\S+\] Building (\S+)',txt,re.M)]
    open(f,'w').write(orig)
    rec={'n':n,'definition':m['def'],'file':m['file'],'edit':m['edit'],'breaks':m['breaks'],'build_ok':r.returncode==0,'failed':errs,'failed_modules':failed,'secs':round(time.time()-t)}
    open(out,'a').write(json.dumps(rec)+'\n')
    print(n,'SURVIVED' if r.returncode==0 else 'killed',m['def'],'|',m['edit'],'|',errs[:3],rec['secs'],flush=True)
