"""Mutation testing of the theorems. usage: python3 tools/mutate.py MUTATIONS.json
Works in /tmp/mut/lean, a scratch copy of lean/ (with its build output). Each mutation: {"def","file","old","new","edit","claim"}.
Prints, for each, the declarations that no longer compile and the property theorems (Cxx_*) that depend on them, and appends
one line per mutation to seeded/LOG.jsonl. deps.tsv (declaration, module, used declarations) is dumped from the unmutated project."""
import json,os,re,subprocess,sys,shutil,collections
V='/verif/lean'; M='/tmp/mut/lean'
deps={};mod={}
for l in open('/tmp/mut/deps.tsv'):
    n,m,u=l.rstrip('\n').split('\t'); deps[n]=set(u.split()); mod[n]=m
rev=collections.defaultdict(set)
for n,us in deps.items():
    for u in us: rev[u].add(n)
def dependants(names):
    seen=set(); st=list(names)
    while st:
        x=st.pop()
        if x in seen: continue
        seen.add(x); st+=rev[x]
    return seen
def sync():
    os.makedirs(M,exist_ok=True)
    subprocess.run(['rsync','-a','--delete',V+'/',M+'/'],check=True) if shutil.which('rsync') else subprocess.run('rm -rf %s && cp -a %s %s'%(M,V,M),shell=True,check=True)
def decl_at(path,line):
    L=open(path).read().split('\n')
    ns=None
    for i in range(line-1,-1,-1):
        m=re.match(r'^(?:@\[[^\]]*\]\s*)?(?:private |protected )?(?:noncomputable )?(theorem|lemma|def|abbrev|instance|example|structure)\b\s*(\S*)',L[i])
        if m: return m.group(2).rstrip(':') or 'example@%d'%(i+1)
    return '?'
def run(mu):
    p=os.path.join(M,mu['file']); src=open(p).read()
    n=src.count(mu['old'])
    if n<1: return None,'NOT FOUND'
    if n>1 and not mu.get('all'): return None,'AMBIGUOUS %d'%n
    open(p,'w').write(src.replace(mu['old'],mu['new']))
    r=subprocess.run(['lake','build'],cwd=M,capture_output=True,text=True)
    out=r.stdout+r.stderr
    failed=[]
    for m in re.finditer(r'^error: (?:\./)?(Verif/\S+\.lean):(\d+):\d+:',out,re.M):
        failed.append((m.group(1),decl_at(os.path.join(M,m.group(1)),int(m.group(2)))))
    open(p,'w').write(src)
    return failed,('survived' if r.returncode==0 else 'killed')
if __name__=='__main__':
    muts=json.load(open(sys.argv[1]))
    log=sys.argv[2] if len(sys.argv)>2 else '/verif/seeded/LOG.jsonl'
    sync()
    for mu in muts:
        failed,st=run(mu)
        if failed is None: print(mu['edit'],st,flush=True); continue
        names=[]
        for f,d in failed:
            if d not in names: names.append(d)
        full=set()
        for f,d in failed:
            m=f[:-5].replace('/','.')
            full|={n for n in deps if mod[n]==m and (n.split('.')[-1]==d.split('.')[-1])}
        props=sorted({n.split('.')[-1] for n in dependants(full) if re.match(r'C\d\d',n.split('.')[-1]) and '.Props.' in mod[n] and '_proof' not in n})
        print(st.upper(),'|',mu['def'],'|',mu['edit'],'|',names[:6],'|',props,flush=True)
        with open(log,'a') as fo:
            fo.write(json.dumps({'definition':mu['def'],'edit':mu['edit'],'claim_broken':mu['claim'],'outcome':st,'first_failing_declarations':names,'theorems_failed':props,'theorems_tightened':mu.get('tightened',[])})+'\n')
