import json,subprocess,sys,re,os
# usage: mut.py batch.json ; each: {"file","old","new","def","edit","claim"}
W='/tmp/mutwork/lean'
def sh(c): return subprocess.run(c,shell=True,capture_output=True,text=True)
batch=json.load(open(sys.argv[1]))
out=sys.argv[2]
sh('mkdir -p '+W+'; rm -rf '+W+'/Verif; cp -a /verif/lean/. '+W+'/')
for k,b in enumerate(batch):
    src='/verif/lean/Verif/'+b['file']; dst=W+'/Verif/'+b['file']
    s=open(src).read()
    if s.count(b['old'])<1:
        print('NOMATCH',k,b['def']); continue
    i=s.index(b['def_anchor']) if 'def_anchor' in b else 0
    j=s.index(b['old'],i)
    t=s[:j]+b['new']+s[j+len(b['old']):]
    open(dst,'w').write(t)
    r=sh(f'cd {W} && timeout 1500 lake build 2>&1')
    fails=set()
    for m in re.finditer(r'error: (?:\./)*(Verif/\S+?\.lean):(\d+):',r.stdout):
        f,l=m.group(1),int(m.group(2))
        lines=open(W+'/'+f).read().split('\n')
        n=None
        for q in range(l-1,-1,-1):
            mm=re.match(r'\s*(?:@\[[^\]]*\]\s*)?(?:private |noncomputable )*(theorem|lemma|def|example|instance|abbrev)\s*(\S*)',lines[q])
            if mm and (mm.group(1)!='example'): n=mm.group(2); break
            if mm: n='example@%s:%d'%(f,q+1); break
        fails.add(f.replace('Verif/','').replace('.lean','')+':'+str(n))
    rec=dict(definition=b['def'],file=b['file'],edit=b['edit'],claim=b['claim'],failed=sorted(fails),built=r.returncode==0)
    print(json.dumps(rec)); sys.stdout.flush()
    open(out,'a').write(json.dumps(rec)+'\n')
    open(dst,'w').write(s)
