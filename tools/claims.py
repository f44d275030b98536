#!/usr/bin/env python3
"""Writes /verif/MANIFEST.json and checks axioms of all listed theorems (run after lake build)."""
import json, subprocess, sys
N="Verif.IndexTree."
claims=[]
def c(prop,status,thms,note=""):
    claims.append({"property":prop,"status":status,"theorems":thms,"note":note})
exec(open("/verif/tools/claims_data.py").read())
json.dump({"claims":claims},open("/verif/MANIFEST.json","w"),indent=1)
props=[json.loads(l)["id"] for l in open("/verif/properties.jsonl")]
missing=[p for p in props if p not in [x["property"] for x in claims]]
print("claims",len(claims),"missing",missing)
thms=sorted({t for x in claims for t in x["theorems"]})
src="import Verif\n"+"".join(f"#print axioms {t}\n" for t in thms)
open("/tmp/audit.lean","w").write(src)
r=subprocess.run(["lake","env","lean","/tmp/audit.lean"],cwd="/verif/lean",capture_output=True,text=True)
out=r.stdout+r.stderr
bad=[l for l in out.split("\n") if "error:" in l or "sorryAx" in l or "ofReduceBool" in l or "trustCompiler" in l]
import re
flat=re.sub(r"\s+"," ",out)
for m in re.finditer(r"depends on axioms: \[([^\]]*)\]",flat):
    for a in m.group(1).split(","):
        if a.strip() not in ("propext","Classical.choice","Quot.sound"): bad.append(a)
print("theorems",len(thms),"bad:",bad)
