#!/usr/bin/env python3
"""Write AXIOMS.md: the axioms each theorem of MANIFEST.json depends on (as printed by Lean).  Needs a built project."""
import json,subprocess,os,re
here=os.path.dirname(os.path.abspath(__file__)); root=os.path.dirname(here)
m=json.load(open(root+"/MANIFEST.json"))
names=[]
for c in m["claims"]:
    for t in c["theorems"]:
        if t not in names: names.append(t)
f="/tmp/ax/Ax.lean"; os.makedirs("/tmp/ax",exist_ok=True)
open(f,"w").write("import Verif\n"+"".join(f"#print axioms {n}\n" for n in names))
out=subprocess.run(["lake","env","lean",f],cwd=root+"/lean",capture_output=True,text=True).stdout
out=re.sub(r"\n\s+"," ",out)
d={}
for l in out.splitlines():
    a=re.match(r"'(.*)' depends on axioms: \[(.*)\]",l)
    b=re.match(r"'(.*)' does not depend on any axioms",l)
    if a: d[a[1]]=a[2]
    elif b: d[b[1]]="none"
    else: print("??",l)
assert all(n in d for n in names),[n for n in names if n not in d]
with open(root+"/AXIOMS.md","w") as o:
    o.write("# Axioms of the theorems in MANIFEST.json (output of `#print axioms`, see tools/axioms.py)\n\n")
    g={}
    for n in names: g.setdefault(d[n],[]).append(n)
    for k in sorted(g): o.write(f"## {k}\n\n"+"".join(f"* `{n}`\n" for n in g[k])+"\n")
print({k:len(v) for k,v in g.items()})
