#!/usr/bin/env python3
"""Apply seeded bugs to a scratch copy of the model and record which theorems stop proving.
usage: mutate.py specs.json [index ...]   (specs: list of {id, file, def, old, new, edit, claim, targets})
Appends one JSON line per attempt to seeded/LOG.jsonl (never edits /verif/lean)."""
import json,os,re,subprocess,sys,shutil
SRC=os.environ.get('MUT_SRC','/verif/lean'); DST='/tmp/mut/lean'
def sync():
    os.makedirs('/tmp/mut',exist_ok=True)
    subprocess.run(f'rm -rf {DST}; cp -a {SRC} {DST}',shell=True,check=True)
def decls(path):
    out=[];ns=[]
    for i,l in enumerate(open(path),1):
        m=re.match(r'namespace\s+(\S+)',l)
        if m: ns.append(m.group(1))
        m=re.match(r'(?:@\[[^\]]*\]\s*)?(?:private |protected |noncomputable )*(theorem|def|lemma|instance|example|abbrev|structure|inductive)\s+(\S+)?',l)
        if m: out.append((i,m.group(1),'.'.join(ns+[m.group(2) or '']) if m.group(1)!='example' else 'example@%d'%i))
    return out
def enclosing(path,line):
    best=None
    for i,k,n in decls(path):
        if i<=line: best=(k,n)
        else: break
    return best
def main():
    specs=json.load(open(sys.argv[1]))
    ids=set(sys.argv[2:])
    for s in specs:
        if ids and s['id'] not in ids: continue
        sync()
        f=os.path.join(DST,s['file'])
        t=open(f).read()
        n=t.count(s['old'])
        if n!=1:
            print(s['id'],'PATTERN COUNT',n); continue
        open(f,'w').write(t.replace(s['old'],s['new']))
        p=subprocess.run(['lake','build']+s['targets'],cwd=DST,capture_output=True,text=True)
        o=p.stdout+p.stderr
        failed=[];defs=[]
        for m in re.finditer(r'error: (Verif/\S+\.lean):(\d+):(\d+)',o):
            e=enclosing(os.path.join(DST,m.group(1)),int(m.group(2)))
            if e:
                (failed if e[0] in('theorem','lemma','example') else defs).append(e[1])
        failed=list(dict.fromkeys(failed));defs=list(dict.fromkeys(defs))
        blocked=re.findall(r'^- (Verif\S+)',o,re.M)
        rec={"id":s['id'],"definition":s['def'],"edit":s['edit'],"claim_broken":s['claim'],"theorems_failed":failed,"modules_not_built":blocked,"theorems_tightened":s.get('tightened',[])}
        if defs: rec["other_failures"]=defs
        if p.returncode==0: rec["survived"]=True
        if s.get('note'): rec["note"]=s['note']
        with open('/verif/seeded/LOG.jsonl','a') as g: g.write(json.dumps(rec,ensure_ascii=False)+'\n')
        print(s['id'],'SURVIVED' if p.returncode==0 else 'killed by %d'%len(failed),failed[:4],defs[:2],flush=True)
if __name__=='__main__': main()
