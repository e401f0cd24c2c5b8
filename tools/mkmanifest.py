#!/usr/bin/env python3
"""Writes /verif/MANIFEST.json from tools/claims.txt and checks that the theorems exist in the sources.

claims.txt: one block per property:  `Cxx status | theorem, theorem | note`
"""
import json, os, re, glob, sys
root=os.path.join(os.path.dirname(os.path.abspath(__file__)),"..")
src="\n".join(open(f).read() for f in glob.glob(root+"/lean/Verif/**/*.lean",recursive=True))
names=set(re.findall(r"^theorem\s+(\S+)",src,re.M))
props=[json.loads(l)["id"] for l in open(root+"/properties.jsonl")]
claims=[];bad=0;used=set()
for l in open(root+"/tools/claims.txt"):
    l=l.strip()
    if not l or l.startswith("#"): continue
    head,ths,note=[x.strip() for x in l.split("|",2)]
    pid,status=head.split()
    ths=[t.strip() for t in ths.split(",") if t.strip()]
    for t in ths:
        used.add(t)
        if t not in names: print("missing theorem",t); bad=1
    claims.append(dict(property=pid,status=status,theorems=["Splitgill.Props."+t for t in ths],note=note))
have={c["property"] for c in claims}
for p in props:
    if p not in have: print("no claim for",p)
for c in have-set(props): print("claim without property",c); bad=1
for n in sorted(names):
    if re.match(r"C\d\d",n) and n not in used: print("unlisted theorem",n)
json.dump({"claims":claims},open(root+"/MANIFEST.json","w"),indent=1)
sys.exit(bad)
