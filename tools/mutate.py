#!/usr/bin/env python3
"""Mutation testing of the model: apply one edit to a scratch copy, rebuild, report which theorems fail.
usage: mutate.py mutants.json  (list of {file, old, new, edit, definition, claim, tightened?})"""
import json, re, shutil, subprocess, sys, os
SRC='/verif/lean'; DST='/tmp/mut/lean'
LOG='/verif/seeded/LOG.jsonl'
def theorem_at(path, line):
    L=open(path).read().split('\n')
    for i in range(min(line,len(L))-1,-1,-1):
        m=re.match(r'(?:@\[.*\] )?(?:private |protected |noncomputable )*(theorem|lemma|def|example|instance)\s*([^\s:({\[]*)',L[i])
        if m: return (m.group(2) or 'example@%d'%(i+1))
    return '?'
def sync():
    subprocess.run(['rsync','-a','--delete','--checksum',SRC+'/',DST+'/'],check=True) if shutil.which('rsync') else \
      (shutil.rmtree(DST,ignore_errors=True), subprocess.run(['cp','-a',SRC,DST],check=True))
def build(grace=60):
    # stop `grace` seconds after the first error: a killed mutant does not need the rest of the build
    import time, signal
    log=open('/tmp/mut/build.log','w+')
    pr=subprocess.Popen(['lake','build'],cwd=DST,stdout=log,stderr=subprocess.STDOUT,start_new_session=True)
    first=None
    while pr.poll() is None:
        time.sleep(2)
        if first is None and 'error: Verif/' in open('/tmp/mut/build.log').read(): first=time.time()
        if first is not None and time.time()-first>grace:
            os.killpg(pr.pid,signal.SIGKILL); pr.wait(); break
    return open('/tmp/mut/build.log').read()
def main():
    muts=json.load(open(sys.argv[1]))
    os.makedirs('/tmp/mut',exist_ok=True)
    sync()
    for m in muts:
        p=os.path.join(DST,m['file']); orig=open(p).read()
        if orig.count(m['old'])!=1:
            print('BAD MUTANT (count %d): %s'%(orig.count(m['old']),m['edit'])); continue
        open(p,'w').write(orig.replace(m['old'],m['new']))
        out=build()
        names=[]
        for f,l in re.findall(r'error: (Verif/\S+?\.lean):(\d+):\d+',out):
            n=theorem_at(os.path.join(DST,f),int(l))
            if n not in names: names.append(n)
        open(p,'w').write(orig)
        rec={'definition':m['definition'],'edit':m['edit'],'claim':m['claim'],'failed':names,'tightened':m.get('tightened',[])}
        print(json.dumps(rec),flush=True)
        with open('/tmp/mut/out.jsonl','a') as f: f.write(json.dumps(rec)+'\n')
        if '--log' in sys.argv:
            with open(LOG,'a') as f: f.write(json.dumps(rec)+'\n')
    sync()
main()
