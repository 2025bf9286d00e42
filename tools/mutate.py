"""Mutation tests: python3 tools/mutate.py MUTATIONS.py [first]   (run from /verif; works in a scratch copy /tmp/w/mut)

MUTATIONS.py defines M, a list of (model file, definition, old text, new text, what the edit is, claim it breaks).
For each: edit the scratch copy, rebuild, collect the property theorems that no longer have a proof (errors, or dependence on a
failed lemma), restore, append one JSON line to seeded/LOG.jsonl.
"""
import sys, re, json, subprocess, pathlib, runpy, os, tempfile
SRC = pathlib.Path(os.environ.get('MUTSRC', '/verif/lean')); MUT = pathlib.Path(os.environ.get('MUTDIR', '/tmp/w/mut'))

PROP = {t: [] for c in json.load(open('/verif/MANIFEST.json'))['claims'] for t in c['theorems']}
for c in json.load(open('/verif/MANIFEST.json'))['claims']:
    for t in c['theorems']: PROP[t].append(c['property'])

def sh(cmd, cwd=MUT, timeout=2400):
    return subprocess.run(cmd, shell=True, cwd=cwd, capture_output=True, text=True, timeout=timeout)

def sync():
    MUT.mkdir(parents=True, exist_ok=True)
    sh(f'rm -rf {MUT}/Verif && cp -r {SRC}/Verif {SRC}/Verif.lean {SRC}/lakefile.toml {SRC}/lean-toolchain {SRC}/lake-manifest.json {MUT}/')
    if not (MUT / '.lake').exists():
        sh(f'cp -r {SRC}/.lake {MUT}/')

def failed(mod):
    """Property theorems of a module without a proof."""
    f = MUT / (mod.replace('.', '/') + '.lean')
    txt = f.read_text()
    nspace = None; names = []; stack = []
    for line in txt.split('\n'):
        m = re.match(r'namespace (\S+)', line)
        if m: stack.append(m.group(1))
        m = re.match(r'end (\S+)', line)
        if m and stack and stack[-1] == m.group(1): stack.pop()
        m = re.match(r'(?:private )?theorem (\w+)', line)
        if m and '.'.join(stack + [m.group(1)]) in PROP: names.append('.'.join(stack + [m.group(1)]))
    t = txt + '\n' + '\n'.join(f'#print axioms {n}' for n in names) + '\n'
    p = pathlib.Path(tempfile.mkdtemp()) / 'T.lean'; p.write_text(t)
    r = sh(f'lake env lean {p}')
    out = r.stdout + r.stderr
    bad = [n for n in names if re.search(r"'" + re.escape(n) + r"' depends on axioms: \[[^\]]*sorryAx", out) or
           re.search(r"Unknown constant `" + re.escape(n) + r"`|unknown constant '" + re.escape(n) + "'", out, re.I)]
    ex = len(re.findall(r'error:', out))
    return bad, ex

def main():
    ms = runpy.run_path(sys.argv[1])['M']
    first = int(sys.argv[2]) if len(sys.argv) > 2 else 0
    for i, (file, defn, old, new, edit, claim) in enumerate(ms):
        if i < first: continue
        sync()
        p = MUT / 'Verif' / 'Model' / (file + '.lean')
        txt = p.read_text()
        if txt.count(old) != 1:
            print(f'[{i}] {defn}: pattern occurs {txt.count(old)} times, skipped', flush=True); continue
        p.write_text(txt.replace(old, new))
        r = sh('lake build 2>&1')
        mods = re.findall(r'^- (Verif\S*)', r.stdout, re.M)
        if any(m.startswith('Verif.Model') for m in mods):
            print(f'[{i}] {defn}: model does not compile', flush=True)
            print(r.stdout[-1500:]); continue
        bad = []
        nerr = 0
        for m in mods:
            if m.startswith('Verif.Props'):
                b, e = failed(m); bad += b; nerr += e
        cid = re.match(r'C\d+', claim)
        hit = any(cid.group(0) in PROP[b] for b in bad) if cid else bool(bad)
        verdict = 'killed' if hit else ('killed elsewhere' if bad or nerr else 'SURVIVED')
        rec = dict(definition=f'{file}.{defn}', edit=edit, old=old, new=new, claim=claim, theorems_failed=bad, theorems_tightened=[])
        if not bad and mods: rec['note'] = 'only examples or auxiliary lemmas of ' + ', '.join(mods) + ' failed'
        print(f'[{i}] {defn}: {verdict}; {len(bad)} property theorems fail: {" ".join(b.split(".")[-1] for b in bad[:8])}', flush=True)
        with open('/verif/seeded/LOG.jsonl' if not os.environ.get('MUTLOG') else os.environ['MUTLOG'], 'a') as f:
            f.write(json.dumps(rec, ensure_ascii=False) + '\n')
    sync()
main()
