#!/usr/bin/env python3
"""Applies one edit at a time to a scratch copy of the model, rebuilds and records which theorems fail.
usage: mutate.py batch.json   (list of {file, old, new, definition, edit, claim})
Results are appended to /tmp/mut/results.jsonl."""
import json,subprocess,sys,re,os,shutil,time
SRC='/verif/lean'; DST='/tmp/mut/lean'
def sync():
    os.makedirs('/tmp/mut',exist_ok=True)
    subprocess.run(['rsync','-a','--delete',SRC+'/',DST+'/'],check=False) if shutil.which('rsync') else (shutil.rmtree(DST,ignore_errors=True),shutil.copytree(SRC,DST,symlinks=True))
def enclosing(path,line):
    L=open(path).read().split('\n')
    for i in range(line-1,-1,-1):
        m=re.match(r'(?:@\[.*\]\s*)?(?:private |noncomputable )*(theorem|def|example|lemma|instance)\s*([\w.₀-₉\']*)',L[i])
        if m: return (m.group(2) or 'example')+('' if m.group(1)!='example' else '@%d'%(i+1))
    return '?'
def build():
    """Builds everything; once something has failed waits 20 more seconds for further failures."""
    import signal,threading
    p=subprocess.Popen(['timeout','1500','lake','build'],cwd=DST,stdout=subprocess.PIPE,stderr=subprocess.STDOUT,text=True,start_new_session=True)
    lines=[]; first=[None]; cut=[False]
    def read():
        for l in p.stdout:
            lines.append(l)
            if l.startswith('error:') and first[0] is None: first[0]=time.time()
    t=threading.Thread(target=read); t.start()
    while t.is_alive():
        t.join(1)
        if first[0] and time.time()-first[0]>20 and not cut[0]:
            cut[0]=True
            try: os.killpg(p.pid,signal.SIGKILL)
            except ProcessLookupError: pass
            subprocess.run(['pkill','-9','-f','lean '+DST])
    p.wait()
    out=''.join(lines)
    errs=[];mods=set()
    for m in re.finditer(r'^error: (?:\./)?(?:\./\./)?(\S+\.lean):(\d+):\d+:',out,re.M):
        f=m.group(1); 
        errs.append((f,enclosing(os.path.join(DST,f),int(m.group(2)))))
    seen=[]
    for e in errs:
        if e not in seen: seen.append(e)
    return (1 if cut[0] else p.returncode),seen
def main():
    batch=json.load(open(sys.argv[1])); sync()
    for b in batch:
        path=os.path.join(DST,'Verif',b['file']); s=open(path).read()
        if s.count(b['old'])!=1:
            print('BAD EDIT',b['edit'],s.count(b['old'])); continue
        open(path,'w').write(s.replace(b['old'],b['new']))
        t=time.time(); rc,errs=build()
        open(path,'w').write(s)
        b['rc']=rc; b['failed']=[e[1]+' ('+e[0].replace('Verif/','')+')' for e in errs]; b['secs']=round(time.time()-t)
        print(('SURVIVED ' if rc==0 else 'killed   ')+b['definition']+': '+b['edit'],b['failed'][:6],b['secs'],flush=True)
        open('/tmp/mut/results.jsonl','a').write(json.dumps(b)+'\n')
main()
