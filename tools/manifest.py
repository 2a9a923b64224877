# status map is maintained here; theorem names are collected by prefix Cnn_ from the Props files
import json,re,glob
st=json.load(open('/tmp/w/status.json'))
names={}
for f in sorted(glob.glob('/verif/lean/Verif/*.lean')):
    s=open(f).read()
    for m in re.finditer(r'(?m)^theorem (C(\d\d)_\w+)',s):
        names.setdefault('C'+m.group(2),[]).append('Tongrams.'+m.group(1))
extra={'C44':['C50_pef_count_trie','C50_ef_count_trie','C50_pef_backoff_trie'],'C46':['C50_pef_backoff_trie']}
claims=[]
for l in open('/verif/properties.jsonl'):
    p=json.loads(l)['id']
    t=names.get(p,[])+['Tongrams.'+x for x in extra.get(p,[])]
    s,n=st.get(p,(None,''))
    if s is None: s='partial'; n=n or ('work in progress' if t else 'not yet modelled; no theorem yet')
    claims.append(dict(property=p,status=s,theorems=t,note=n))
json.dump({"claims":claims},open('/verif/MANIFEST.json','w'),indent=1)
print({k:len(v) for k,v in names.items()})
