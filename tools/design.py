#!/usr/bin/env python3
"""Regenerates DESIGN.md. Usage: tools/design.py [output of '#print axioms' for all manifest theorems]"""
import json,re,sys,os
R='/verif/'
plan=json.load(open(R+'tools/plan.json'))
man={c['property']:c for c in json.load(open(R+'MANIFEST.json'))['claims']}
props=[json.loads(l) for l in open(R+'properties.jsonl')]
out=open(R+'tools/design.head.md').read()
out+='## Per property: what is modelled and how it is proved\n\n(statements in `properties.jsonl`, theorems and remarks in `MANIFEST.json`)\n\n| | property | model and proof | status |\n|---|---|---|---|\n'
for d in props:
    out+=f"| {d['id']} | {d['title']} | {plan[d['id']]} | {man[d['id']]['status']} |\n"
out+='\nNo property is classified as inexpressible.\n'
axf=R+'tools/axioms.txt'
if len(sys.argv)>1:
    s=open(sys.argv[1]).read()
    r=re.findall(r"'([^']+)' (?:depends on axioms: \[([^\]]*)\]|does not depend on any axioms)",s)
    with open(axf,'w') as f:
        for n,a in r: f.write(n+' : '+' '.join(sorted(a.replace('\n',' ').replace(',',' ').split()))+'\n')
if os.path.exists(axf):
    out+='\n## Axioms each theorem depends on\n\nP = propext, Q = Quot.sound, C = Classical.choice.\n\n'
    ab={'propext':'P','Quot.sound':'Q','Classical.choice':'C'}
    g={}
    for l in open(axf):
        n,a=l.rstrip('\n').split(' :',1)
        g.setdefault(' '.join(sorted((ab[x] for x in a.split()),key='PQC'.index)) or 'none',[]).append(n.replace('TorchMPS.',''))
    for k in sorted(g): out+=f"* **{k}** ({len(g[k])} theorems): "+', '.join('`%s`'%x for x in g[k])+'\n'
open(R+'DESIGN.md','w').write(out)
