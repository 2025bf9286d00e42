#!/usr/bin/env python3
"""Assemble /verif/DESIGN.md from design_head.md, design_plans.md (C01-C56) and MANIFEST.json (later properties)."""
import json,os
R=os.path.dirname(os.path.dirname(os.path.abspath(__file__)))
P=[json.loads(l) for l in open(R+'/properties.jsonl')]
C={c['property']:c for c in json.load(open(R+'/MANIFEST.json'))['claims']}
out=open(R+'/tools/design_head.md').read()+open(R+'/tools/design_plans.md').read()
for p in P:
    if int(p['id'][1:])<=56: continue
    c=C[p['id']]
    out+=f"* **{p['id']} {p['title']}** - {c['status']}; "+", ".join(f"`{t}`" for t in c['theorems'])+f". {c['note']}\n"
open(R+'/DESIGN.md','w').write(out)
