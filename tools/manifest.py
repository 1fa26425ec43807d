"""Writes MANIFEST.json: theorem names are collected from the Props files by their Cxx prefix."""
import json,re,glob,os
root=os.path.dirname(os.path.dirname(os.path.abspath(__file__)))
notes=json.load(open(os.path.join(root,'tools','notes.json')))
thms={}
for f in sorted(glob.glob(root+'/lean/Verif/Props/**/*.lean',recursive=True)):
    ns=[]
    for line in open(f):
        m=re.match(r'namespace (\S+)',line)
        if m: ns.append(m.group(1))
        m=re.match(r'end (\S+)',line)
        if m and ns and ns[-1]==m.group(1): ns.pop()
        m=re.match(r'(?:@\[.*?\]\s*)?theorem (C\d\d\d?)(\S*)',line)
        if m: thms.setdefault(m.group(1),[]).append('.'.join(ns+[m.group(1)+m.group(2)]))
claims=[]
for line in open(root+'/properties.jsonl'):
    p=json.loads(line)['id']
    n=notes.get(p,{})
    t=thms.get(p,[])
    st=n.get('status','proved' if t else None)
    if not t and st!='not_applicable':
        continue
    claims.append({"property":p,"status":st,"theorems":t,"note":n.get('note','')})
json.dump({"claims":claims},open(root+'/MANIFEST.json','w'),indent=1)
print(len(claims),'claims',sum(len(c['theorems']) for c in claims),'theorems')
