#!/usr/bin/env python3
"""Write /verif/AXIOMS.md: the axioms of every theorem named in MANIFEST.json (needs a finished lake build)."""
import json,os,re,subprocess,tempfile,collections
R=os.path.dirname(os.path.dirname(os.path.abspath(__file__)))
names=[]
for c in json.load(open(R+'/MANIFEST.json'))['claims']:
    for t in c['theorems']:
        if t not in names: names.append(t)
with tempfile.NamedTemporaryFile('w',suffix='.lean',delete=False) as f:
    f.write('import Verif\n'+''.join(f'#print axioms {n}\n' for n in names))
o=subprocess.run(['lake','env','lean',f.name],cwd=R+'/lean',capture_output=True,text=True).stdout
os.unlink(f.name)
g=collections.OrderedDict()
seen=set()
for m in re.finditer(r"'([^']+(?:'[^']*)?)' (?:depends on axioms: \[([^\]]*)\]|(does not depend on any axioms))",o):
    ax=', '.join(sorted(x.strip() for x in m.group(2).split(','))) if m.group(2) else 'none'
    g.setdefault(ax,[]).append(m.group(1)); seen.add(m.group(1))
out='# Axioms of the claimed theorems\n\nFrom `#print axioms` (tools/axioms.py).\n'
for ax,l in g.items(): out+=f'\n## {ax} ({len(l)})\n\n'+''.join(f'* `{x}`\n' for x in l)
open(R+'/AXIOMS.md','w').write(out)
print({a:len(l) for a,l in g.items()},'not seen:',[n for n in names if n not in seen])
