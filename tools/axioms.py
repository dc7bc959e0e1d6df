#!/usr/bin/env python3
"""Print the axioms of every theorem of MANIFEST.json into AXIOMS.txt (needs a built project)."""
import json, os, re, subprocess
here=os.path.dirname(os.path.dirname(os.path.abspath(__file__)))
ths=[]
for c in json.load(open(here+"/MANIFEST.json"))["claims"]:
    for t in c["theorems"]:
        if t not in ths: ths.append(t)
src="import Verif\n"+"".join(f"#print axioms {t}\n" for t in ths)
open("/tmp/axioms_check.lean","w").write(src)
r=subprocess.run(["lake","env","lean","/tmp/axioms_check.lean"],cwd=here+"/lean",capture_output=True,text=True)
out=re.sub(r"\n\s+"," ",r.stdout)
groups={}
for l in out.split("\n"):
    m=re.match(r"'(.*)' depends on axioms: \[(.*)\]",l) or re.match(r"'(.*)' does not depend on any axioms()",l)
    if m: groups.setdefault(", ".join(sorted(m.group(2).split(", "))) or "none",[]).append(m.group(1))
with open(here+"/AXIOMS.txt","w") as f:
    for k,v in sorted(groups.items()):
        f.write(f"[{k}] {len(v)} theorems\n"+"".join(f"  {t}\n" for t in sorted(v)))
print({k:len(v) for k,v in groups.items()}, len(ths), r.stderr[:300])
