import re,json,glob,collections
exec(open('/tmp/work/notes.py').read())  # NOTES: id -> (status, note)
th=collections.defaultdict(list)
for f in sorted(glob.glob('/verif/lean/Verif/Theorems/*.lean')):
    ns=[]
    for line in open(f):
        m=re.match(r'namespace (\S+)',line)
        if m: ns.append(m.group(1))
        m=re.match(r'end (\S+)',line)
        if m and ns and ns[-1]==m.group(1): ns.pop()
        m=re.match(r'(?:private |protected )?theorem (C\d\d+)_(\S+)',line)
        if m:
            th[m.group(1)].append('.'.join(ns)+'.'+m.group(1)+'_'+m.group(2))
props=[json.loads(l)['id'] for l in open('/verif/properties.jsonl')]
claims=[]
for p in props:
    if p in NOTES:
        st,n=NOTES[p]
        claims.append({"property":p,"status":st,"theorems":th.get(p,[]),"note":n})
    elif p in th: print("no note for",p)
json.dump({"claims":claims},open('/verif/MANIFEST.json','w'),indent=1)
print(len(claims),[p for p in props if p not in NOTES])
