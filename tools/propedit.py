"""Helpers to edit properties.jsonl: load/patch/append/save."""
import json, pathlib
F=pathlib.Path(__file__).parent.parent/"properties.jsonl"
P=[json.loads(l) for l in open(F)]
D={p["id"]:p for p in P}
def patch(i,**k): D[i].update(k)
def add(id,title,statement,quantifier,why,anchors):
    d=dict(id=id,title=title,statement=statement,quantifier=quantifier,why_tests_cant=why,anchors=anchors)
    if id in D: D[id].update(d)
    else: P.append(d); D[id]=d
def save():
    P.sort(key=lambda p:int(p["id"][1:]))
    with open(F,"w") as f:
        for p in P: f.write(json.dumps(p,ensure_ascii=False)+"\n")
