import sys,json
# usage: addnote.py id status note
i,st,n=sys.argv[1:4]
exec(open('/tmp/work/notes.py').read())
NOTES[i]=(st,n)
open('/tmp/work/notes.py','w').write('NOTES = {\n'+''.join('%s:(%s,%s),\n'%(json.dumps(k),json.dumps(v[0]),json.dumps(v[1],ensure_ascii=False)) for k,v in sorted(NOTES.items()))+'}\n')
