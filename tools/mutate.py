#!/usr/bin/env python3
"""Seeded-bug testing.  usage: mutate.py mutants.json [first index]
Each mutant: {"file","old","new","definition","edit","claim"}.  The project is copied outside /verif, the
edit applied, the project rebuilt; the declarations whose proof no longer checks are located from the
error positions, and the property theorems depending on them (in the unedited project, dependency
graph in /tmp/w/deps.txt) are reported.  A line is appended to /verif/seeded/LOG.jsonl."""
import json,re,subprocess,sys,os,shutil,collections
W='/tmp/w/mut'; SRC=os.environ.get('MUT_SRC','/verif/lean')  # a snapshot when /verif is being edited
def sync():
    shutil.rmtree(W,ignore_errors=True)
    subprocess.run(['cp','-a',SRC,W],check=True)
def load_deps():
    g={}
    for l in open('/tmp/w/deps.txt'):
        p=l.split()
        if p: g[p[0]]=p[1:]
    return g
def decl_at(f,line):
    ls=open(f).read().split('\n')
    ns=[]
    cur=None
    for k,l in enumerate(ls[:line],1):
        m=re.match(r'namespace\s+(\S+)',l)
        if m: ns.append(m.group(1))
        m=re.match(r'end\s+(\S+)',l)
        if m and ns and ns[-1]==m.group(1): ns.pop()
        m=re.match(r'(?:@\[[^\]]*\]\s*)?(?:private |protected |noncomputable )*(?:theorem|lemma|def|instance|example|abbrev|structure)\s*(\S*)',l)
        if m:
            kind=l.split()[0]
            cur='.'.join(ns+[m.group(1)]) if not l.startswith('example') else 'example'
    return cur
def run(mu,g):
    f=os.path.join(W,mu['file'])
    s=open(f).read()
    if s.count(mu['old'])!=1:
        print('BAD mutant (count %d): %s'%(s.count(mu['old']),mu['edit'])); return None
    open(f,'w').write(s.replace(mu['old'],mu['new']))
    r=subprocess.run(['lake','build'],cwd=W,capture_output=True,text=True,timeout=3900)
    out=r.stdout+r.stderr
    open('/tmp/w/mut.out','w').write(out)
    fails=[]
    for m in re.finditer(r'error: (Verif/\S+\.lean):(\d+):\d+',out):
        d=decl_at(os.path.join(W,m.group(1)),int(m.group(2)))
        if d not in fails: fails.append(d)
    dep=set()
    rev=collections.defaultdict(list)
    for a,bs in g.items():
        for b in bs: rev[b].append(a)
    todo=[x for x in fails if x]
    seen=set(todo)
    while todo:
        a=todo.pop()
        for b in rev.get(a,[]):
            if b not in seen: seen.add(b); todo.append(b)
    props=sorted(x for x in seen if re.match(r'C\d+_',x.split('.')[-1]))
    return {"built":r.returncode==0,"fails":fails,"props":props}
def main():
    mus=json.load(open(sys.argv[1])); st=int(sys.argv[2]) if len(sys.argv)>2 else 0
    g=load_deps()
    for k,mu in enumerate(mus[st:],st):
        sync()
        res=run(mu,g)
        if res is None: continue
        fam=sorted({p.split('.')[-1].split('_')[0] for p in res['props']})
        short=[p for p in res['props'] if p.split('.')[-1].startswith(mu['claim']+'_')]
        rec={"definition":mu['definition'],"edit":mu['edit'],"breaks":mu['claim'],
             "failed_first":res['fails'],"failed":(short+[p for p in res['props'] if p not in short])[:25],
             "properties_failed":fam,"caught":mu['claim'] in fam,"tightened":[]}
        with open('/verif/seeded/LOG.jsonl','a') as o: o.write(json.dumps(rec)+'\n')
        print(k,mu['definition'],'CAUGHT' if rec['caught'] else 'MISSED (built=%s)'%res['built'],res['fails'][:3],fam,flush=True)
main()
