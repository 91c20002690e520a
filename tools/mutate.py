#!/usr/bin/env python3
"""Seed wrong programs: for each mutant edit one model definition in a scratch copy, rebuild, and log which
theorems fail.  Usage: mutate.py mutants.json  (list of {id,file,def,old,new,claim,breaks})"""
import json,sys,os,subprocess,re,shutil,time,signal
V='/verif/lean'; W='/tmp/mutwork/lean'; LOG='/verif/seeded/LOG.jsonl'
def sync():
    os.makedirs(W,exist_ok=True)
    subprocess.run(['rsync','-a','--delete',V+'/',W+'/'],check=True) if shutil.which('rsync') else subprocess.run(f'rm -rf {W} && cp -a {V} {W}',shell=True,check=True)
def decl_at(path,line):
    name='?'
    ns=''
    for i,l in enumerate(open(path),1):
        if i>line: break
        m=re.match(r'(?:@\[.*\]\s*)?(?:private |protected |noncomputable )*(theorem|lemma|def|instance|structure|abbrev|example)\s*(\S*)',l)
        if m: name=m.group(2) if m.group(1)!='example' else 'example@%d'%i
    return name
def run(m):
    p=f'{W}/Verif/{m["file"]}'; src=open(p).read()
    assert src.count(m['old'])>=1,(m['id'],'old not found')
    assert src.count(m['old'])==1,(m['id'],'old not unique',src.count(m['old']))
    open(p,'w').write(src.replace(m['old'],m['new']))
    try:
        # the build is stopped some seconds after the first error: one theorem that fails is enough
        o=open('/tmp/mutwork/out','w+')
        r=subprocess.Popen(['lake','build'],cwd=W,stdout=o,stderr=subprocess.STDOUT,start_new_session=True)
        t0=time.time(); t1=None
        while r.poll() is None:
            time.sleep(1)
            if t1 is None and 'error: Verif/' in open('/tmp/mutwork/out').read(): t1=time.time()
            if (t1 and time.time()-t1>20) or time.time()-t0>1500:
                os.killpg(r.pid,signal.SIGKILL); r.wait()
        out=open('/tmp/mutwork/out').read()
    finally:
        open(p,'w').write(src)
    fails=[]
    for mm in re.finditer(r'error: (Verif/\S+?\.lean):(\d+):\d+: (.*)',out):
        d=(mm.group(1),decl_at(f'{W}/{mm.group(1)}',int(mm.group(2))))
        if d not in fails: fails.append(d)
    return r.returncode,fails,out
def main():
    ms=json.load(open(sys.argv[1]))
    sel=sys.argv[2:]
    done=set()
    if os.path.exists(LOG):
        for l in open(LOG): done.add(json.loads(l).get('id'))
    sync()
    for m in ms:
        if sel and m['id'] not in sel: continue
        if not sel and m['id'] in done: continue
        try: rc,f,out=run(m)
        except AssertionError as e: print('SKIP',e,flush=True); continue
        surv = rc==0
        model_err=[d for d in f if '/Model/' in d[0]]
        rec=dict(id=m['id'],definition=m['def'],edit=m['edit'] if 'edit' in m else m['old'].strip()+'  ==>  '+m['new'].strip(),claim_broken=m['breaks']+': '+m['claim'],theorems_failed=[d[1] for d in f],theorems_tightened=[])
        print(m['id'],'SURVIVED' if surv else 'killed',[d[1] for d in f],'MODEL ERROR' if model_err else '',flush=True)
        if model_err: print(out[-1500:]); continue
        if surv: open('/tmp/mutwork/survivors','a').write(m['id']+'\n')
        if not surv and not f: print(out[-1500:])
        open(LOG,'a').write(json.dumps(rec,ensure_ascii=False)+'\n')
main()
