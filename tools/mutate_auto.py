#!/usr/bin/env python3
"""Automated seeded bugs: each mutant replaces one line of one definition of the model (see gen in /tmp), rebuilds a scratch
copy and stops at the first failing module.  Usage: mutate_auto.py MUTANTS.json OUT.jsonl SCRATCH [first [step]]"""
import json, subprocess, sys, os, re, shutil, time, signal
src='/verif/lean'
muts=json.load(open(sys.argv[1])); out=sys.argv[2]; scratch=sys.argv[3]
lo=int(sys.argv[4]) if len(sys.argv)>4 else 0
step=int(sys.argv[5]) if len(sys.argv)>5 else 1
pristine=scratch+'/pristine'; dst=scratch+'/work'
os.makedirs(scratch,exist_ok=True)
if not os.path.exists(pristine): subprocess.run(['cp','-a',src,pristine],check=True)
def decl_at(path,line):
    L=open(path).read().split('\n')
    for i in range(min(line,len(L))-1,-1,-1):
        m=re.match(r'\s*(?:@\[[^\]]*\]\s*)?(?:private\s+|protected\s+|noncomputable\s+)*(theorem|def|example|instance|structure|lemma|abbrev)\b\s*(\S*)',L[i])
        if m: return (m.group(2) if m.group(1)!='example' else 'example@%s:%d'%(os.path.basename(path),i+1)).rstrip(':')
    return '?'
for n in range(lo,len(muts),step):
    while os.path.exists('/tmp/pause'): time.sleep(2)
    m=muts[n]
    shutil.rmtree(dst,ignore_errors=True); subprocess.run(['cp','-a',pristine,dst],check=True)
    f=os.path.join(dst,m['file']); L=open(f).read().split('\n')
    if L[m['line']]!=m['old']: print(n,'PATTERN NOT FOUND',m['def'],flush=True); continue
    L[m['line']]=m['new']; open(f,'w').write('\n'.join(L))
    t=time.time()
    p=subprocess.Popen(['lake','build'],cwd=dst,stdout=subprocess.PIPE,stderr=subprocess.STDOUT,text=True,start_new_session=True)
    errs=[]; stop=None
    for line in p.stdout:
        mm=re.search(r'error: (Verif/\S+?\.lean):(\d+):\d+',line)
        if mm:
            d=mm.group(1)+'#'+decl_at(os.path.join(dst,mm.group(1)),int(mm.group(2)))
            if d not in errs: errs.append(d)
            if stop is None: stop=time.time()
        if stop is not None and (line.startswith('✖') or line.startswith('✔') or line.startswith('⚠')) and errs and time.time()-stop>0.2: break
        if time.time()-t>1500: break
    alive=p.poll() is None
    if alive:
        try: os.killpg(p.pid,signal.SIGKILL)
        except ProcessLookupError: pass
    rc=p.wait()
    ok=rc==0 and not errs
    invalid=any(e.startswith(m['file']+'#') for e in errs) and len(errs)==1 and '/Model/' in errs[0]
    rec={'n':n,'definition':m['def'],'file':m['file'],'edit':m['edit'],'breaks':m.get('breaks',''),'build_ok':ok,'failed':errs,'failed_modules':[],'secs':round(time.time()-t)}
    open(out,'a').write(json.dumps(rec)+'\n')
    print(n,'SURVIVED' if ok else ('killed' if errs else 'NOERR rc=%s'%rc),m['def'],'|',m['edit'],'|',errs[:2],rec['secs'],flush=True)
