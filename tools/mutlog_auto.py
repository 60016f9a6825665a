#!/usr/bin/env python3
"""Appends results of tools/mutate_auto.py (generated edits) to seeded/LOG.jsonl.
Usage: mutlog_auto.py OUT.jsonl ROUND NOTES.json
The claim at stake is taken from the definition or file edited; NOTES maps the number of a mutant to
{"verdict": .., "note": .., "tightened": [..]} for those that needed a decision."""
import json,sys,re,os
sys.argv_=sys.argv
root='/verif/lean'
def imports(mod,seen):
    if mod in seen: return
    seen.add(mod)
    p=os.path.join(root,mod.replace('.','/')+'.lean')
    if not os.path.exists(p): return
    for l in open(p):
        m=re.match(r'import (Verif\.\S+)',l)
        if m: imports(m.group(1),seen)
where={}
for d in os.listdir(root+'/Verif/Props'):
    mod='Verif.Props.'+d[:-5]; s=set(); imports(mod,s)
    for m in re.finditer(r'^theorem (\S+)',open(root+'/Verif/Props/'+d).read(),re.M): where['Jmt.'+m.group(1).replace('_root_.Jmt.','')]=s
man={c['property']:c['theorems'] for c in json.load(open('/verif/MANIFEST.json'))['claims']}
CL={'Batch':'C15 C03','Exclusion':'C27 C22','Ics23':'C28','Iterator':'C20 C21','Mock':'C10 C40','MockFail':'C65','NibblePath':'C34 C35 C36','NodeType':'C37 C04',
 'Proof':'C06 C07 C16 C17 C22','Restore':'C23 C24 C25','Tree':'C01 C03 C13','TreeCache':'C11 C14 C48','Borsh':'C49','Bytes':'C33','Types':'C34','Writer':'C48','System':'C13','Print':'C62'}
notes=json.load(open(sys.argv[3])) if len(sys.argv)>3 else {}
out=open('/verif/seeded/LOG.jsonl','a'); n=k=0
for l in open(sys.argv[1]):
    r=json.loads(l)
    if len(r['failed'])==1 and r['failed'][0]==r['file']+'#'+r['definition'] and not r['build_ok']: continue # did not compile
    if not r['build_ok'] and r['failed'] and all(f.startswith('Verif/Model/') for f in r['failed']): continue
    base=os.path.basename(r['file'])[:-5]
    cs=CL[base].split()
    mods=set('Verif.'+f.split('#')[0][6:-5].replace('/','.') for f in r['failed'])
    lost=[t for c in cs for t in man.get(c,[]) if mods & where.get(t,set())]
    x=notes.get(str(r['n']),{})
    v='survived' if r['build_ok'] else 'killed'
    out.write(json.dumps({'round':sys.argv[2],'definition':r['definition'],'file':'lean/'+r['file'],'edit':r['edit'],
      'claim_broken':x.get('claim','%s (claims about %s)'%(', '.join(cs),r['definition'])) if not x.get('equivalent') else 'none: '+x['note'],
      'verdict':x.get('verdict',v),'theorems_failed':r['failed'],'property_theorems_lost':lost[:12],'tightened':x.get('tightened',[]),**({'note':x['note']} if 'note' in x else {})})+'\n')
    n+=1; k+=r['build_ok']
print(n,'logged,',k,'survived at first')
