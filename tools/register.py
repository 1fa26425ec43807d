#!/usr/bin/env python3
"""register.py FILE: add properties (list of {prop, note, plan}) to properties.jsonl, notes.json, plan.json"""
import json,sys
ps=json.load(open(sys.argv[1]))
n=json.load(open('tools/notes.json'));p=json.load(open('tools/plan.json'))
have={json.loads(l)['id'] for l in open('properties.jsonl')}
for x in ps:
    i=x['prop']['id']
    if i not in have: open('properties.jsonl','a').write(json.dumps(x['prop'])+"\n")
    n[i]={'note':x['note']}; p[i]=x['plan']
json.dump(n,open('tools/notes.json','w'),indent=1,ensure_ascii=False)
json.dump(p,open('tools/plan.json','w'),indent=1,ensure_ascii=False)
