import json,glob,os,re,ast
old2new={'C19':'C22','C20':'C23','C16':'C14','C15':'C13','C14':'C15','C13':'C16'}
specs={}
order=[]
for b in sorted(glob.glob('/tmp/w/mut/b*.py')):
    ns={}; exec(open(b).read(),ns)
    for m in ns['M']:
        m['spec']=os.path.basename(b); specs[m['id']]=m; order.append(m['id'])
res={}
for l in open('/tmp/w/mut/results.jsonl'):
    r=json.loads(l); res[r['id']]=r
deps={}
for l in open('/tmp/w/dep/deps.txt'):
    n,_,d=l.rstrip('\n').partition('\t'); deps[n]=set(d.split())
tight=json.load(open('/tmp/w/mut/tight.json'))
def claims(m):
    c=m['claim']; i=m['id']
    if m['spec']!='b2.py': return c
    p=i[0]
    k=re.match(r'([a-z]+)(\d+)',i); num=int(k.group(2))
    if p=='n':
        t=(m['definition']+m['edit']).lower()
        if 'push' in t or 'rnext' in t or 'ring' in t: return ['C19']
        if 'corpus' in t or 'total' in t: return ['C30']
        if 'finalize' in t or 'init' in t: return ['C30','C27']
        return ['C27','C29']
    if p=='o': return ['C38']
    if p=='p': return ['C24','C25']
    if p=='q': return ['C39'] if num<=2 else ['C20']
    if p=='r': return ['C45'] if i.startswith('r05') else ['C24','C25']
    if p=='s': return ['C27'] if i=='s06' else ['C21']
    if p=='t': return ['C27']
    return [old2new.get(x,x) for x in c]
os.makedirs('/verif/seeded',exist_ok=True)
n=0;surv=[]
with open('/verif/seeded/LOG.jsonl','w') as f:
    for i in order:
        m=specs[i]; r=res.get(i)
        if r is None: continue
        failed=[]
        lem=[]
        for e in r['failed']:
            mod,_,t=e.partition(': ')
            kind,_,name=t.partition(' ')
            lem.append(f'{mod}.{name or kind}' if kind!='example' else f'{mod} (example)')
            if name:
                for c,d in deps.items():
                    if any(x==name or x.endswith('.'+name) for x in d) and c.replace('Tongrams.','') not in failed: failed.append(c.replace('Tongrams.',''))
        cl=claims(m)
        hit=sorted(x for x in failed if x[:3] in cl)
        j=dict(id=i,definition=f"{m['file']}.lean: {m['definition']}",edit=m['edit'],old=m['old'],new=m['new'],claim_broken=cl,claim_text=m['text'],
          result='survived' if r['survived'] else 'killed',failed_at=lem,
          theorems_failed=hit or sorted(failed)[:12], other_theorems_not_built=len(failed)-len(hit) if hit else 0,
          theorems_tightened=tight.get(i,{}).get('tightened',[]))
        if i in tight: j['note']=tight[i]['note']
        if r['survived'] and i not in tight: surv.append(i)
        f.write(json.dumps(j,ensure_ascii=False)+'\n'); n+=1

# automatic single-token edits of definitions
auto={m['id']:m for m in json.load(open('/tmp/w/mut/auto_spec.json'))}
na=0
with open('/verif/seeded/LOG.jsonl','a') as f:
    for l in open('/tmp/w/mut/auto_results.jsonl'):
        r=json.loads(l); i=r['id']; m=auto[i]
        if r['status'] in ('invalid','odd','timeout'): continue
        if 'xample' in m['definition'] or m['definition'].startswith('Spec.'): continue
        failed=set(); lem=[]
        for e in r['failed']:
            mod,_,t=e.partition(': '); kind,_,name=t.partition(' ')
            lem.append(f'{mod}.{name or kind}' if kind!='example' else f'{mod} (example)')
            if name:
                for c,d in deps.items():
                    if any(x==name or x.endswith('.'+name) for x in d): failed.add(c.replace('Tongrams.',''))
        if r['status']=='killed' and not failed and all('(example)' in x for x in lem) and i not in tight: note='only an example failed'
        else: note=None
        hit=sorted(failed); cl=sorted({x[:3] for x in hit})
        j=dict(id=i,definition=f"{m['file']}.lean: {m['definition']}",edit='automatic edit of one token, line %d'%m['line'],old=m['oldline'].strip(),new=m['newline'].strip(),claim_broken=cl[:8],
          claim_text='the edited definition computes something else; the claims whose theorems stop being provable are listed',
          result=r['status'],failed_at=lem[:8],theorems_failed=hit[:12],other_theorems_not_built=max(0,len(hit)-12),theorems_tightened=tight.get(i,{}).get('tightened',[]))
        if i in tight: j['note']=tight[i]['note']
        elif note: j['note']=note
        if r['status']=='survived' and i not in tight: surv.append(i)
        f.write(json.dumps(j,ensure_ascii=False)+'\n'); n+=1; na+=1
print(na,'automatic')
print(n,'entries; survivors without a note:',surv, 'missing:',[i for i in order if i not in res])
