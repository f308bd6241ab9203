# append the results of /tmp/mut.py (files given) to seeded/LOG.jsonl; skips duplicates
import json,sys
L='/verif/seeded/LOG.jsonl'
have={(d['definition'],d['edit']) for d in map(json.loads,open(L))}
with open(L,'a') as o:
    for f in sys.argv[1:]:
        for l in open(f):
            d=json.loads(l)
            if (d['definition'],d['edit']) in have or (not d['failed'] and not d['built']): continue
            have.add((d['definition'],d['edit']))
            o.write(json.dumps(dict(definition=d['definition'],file=d['file'],edit=d['edit'],claim=d['claim'],
              theorems_failed=d['failed'],still_built=d['built'],theorems_tightened=d.get('tightened',[])))+'\n')
