#!/usr/bin/env python3
"""Appends results of tools/mutate.py to seeded/LOG.jsonl.  Usage: mutlog.py OUT.jsonl ROUND
`failed` are the declarations at which Lean reported errors; `properties_lost` the property theorems of the
manifest for the claimed property, which can no longer be built because they import the failing module."""
import json,sys,re,os
root='/verif/lean'
def imports(mod,seen):
    if mod in seen: return
    seen.add(mod)
    p=os.path.join(root,mod.replace('.','/')+'.lean')
    if not os.path.exists(p): return
    for l in open(p):
        m=re.match(r'import (Verif\.\S+)',l)
        if m: imports(m.group(1),seen)
where={}
for d in os.listdir(root+'/Verif/Props'):
    mod='Verif.Props.'+d[:-5]; s=set(); imports(mod,s)
    for m in re.finditer(r'^theorem (\S+)',open(root+'/Verif/Props/'+d).read(),re.M): where['Jmt.'+m.group(1)]=s
man={c['property']:c['theorems'] for c in json.load(open('/verif/MANIFEST.json'))['claims']}
out=open('/verif/seeded/LOG.jsonl','a')
for l in open(sys.argv[1]):
    r=json.loads(l)
    if len(r['failed'])==1 and r['failed'][0]==r['file']+'#'+r['definition']: continue # did not compile
    cs=re.findall(r'C\d\d',r['breaks'])
    lost=[t for c in cs for t in man.get(c,[]) if any(f in where.get(t,()) for f in r['failed_modules'])]
    out.write(json.dumps({'round':sys.argv[2],'definition':r['definition'],'file':'lean/'+r['file'],'edit':r['edit'],'claim_broken':r['breaks'],
      'verdict':'survived' if r['build_ok'] else 'killed','theorems_failed':r['failed'],'property_theorems_lost':lost,'tightened':r.get('tightened',[])})+'\n')
