import re,os,glob
def table():
    files={}
    for root in ['/repo/include','/repo/src','/repo/python']:
        for p,_,fs in os.walk(root):
            for f in fs:
                if f.endswith(('.hpp','.cpp')): files[f]=os.path.join(p,f)
    cited={f:set() for f in files}; mods={f:set() for f in files}
    for l in sorted(glob.glob('/verif/lean/Verif/*.lean')):
        s=open(l).read()
        for m in re.finditer(r'([a-z_0-9]+\.(?:hpp|cpp)):((?:\d+(?:-\d+)?)(?:,\s*\d+(?:-\d+)?)*)',s):
            f=m.group(1)
            if f not in files: continue
            mods[f].add(os.path.basename(l)[:-5])
            for r in re.split(r',\s*',m.group(2)):
                a,*b=r.split('-'); b=int(b[0]) if b else int(a)
                cited[f]|=set(range(int(a),b+1))
    out=[]
    for f in sorted(files,key=lambda f:files[f]):
        ls=open(files[f]).read().split('\n')
        code=[i for i,t in enumerate(ls,1) if t.strip() and not t.strip().startswith(('//','#','*','/*')) and t.strip() not in('}','};','{','public:','private:') and not t.strip().startswith(('namespace','} //','}  //'))]
        un=[i for i in code if i not in cited[f]]
        rs=[]
        for i in un:
            if rs and i-rs[-1][1]<=2: rs[-1][1]=i
            else: rs.append([i,i])
        out.append((files[f][6:],len(code)-len(un),len(code),sorted(mods[f]),rs))
    return out
if __name__=='__main__':
    for r in table(): print(r)
