import sys,json
# usage: addprop.py file.json  {id,title,statement,quant,why?,anchors,status,thms,note,model,how,find?}
d=json.load(open(sys.argv[1]))
f='/verif/tools/props.py'; s=open(f).read()
why=json.dumps(d['why'],ensure_ascii=False) if 'why' in d else 'SZ'
new='p(%s,%s,%s,%s,%s,%s)\n'%(*[json.dumps(d[k],ensure_ascii=False) for k in ('id','title','statement','quant')],why,json.dumps(d['anchors']))
i=s.index("open('/verif/properties.jsonl'"); i=s.rindex('\n',0,i)+1
s=s[:i]+new+s[i:]; open(f,'w').write(s)
f='/verif/tools/claims.py'; s=open(f).read().rstrip('\n')+'\n'
s+='c(%s)\n'%','.join(json.dumps(d[k],ensure_ascii=False) for k in ('id','status','thms','note')); open(f,'w').write(s)
f='/verif/tools/design.py'; L=open(f).read().split('\n')
k=max(i for i,l in enumerate(L) if l.startswith('h("'))
L.insert(k+1,'h(%s)'%','.join(json.dumps(d[k],ensure_ascii=False) for k in ('id','model','how'))); open(f,'w').write('\n'.join(L))
if 'find' in d:
    f='/verif/tools/design_tail.md'; s=open(f).read(); i=s.index('## Seeded bugs'); s=s[:i].rstrip('\n')+'\n- '+d['find']+'\n\n'+s[i:]; open(f,'w').write(s)
