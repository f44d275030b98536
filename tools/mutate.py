#!/usr/bin/env python3
"""Seeded-bug runner.

usage: mutate.py spec.json
spec: list of {"definition","file","old","new","edit","claim"}.
Each mutation is applied in a scratch copy of /verif/lean, the project is rebuilt and the
failing declarations are recorded as one line in /verif/seeded/LOG.jsonl.
MUT_SRC names a frozen copy of the project to use instead of /verif/lean.
"""
import json, os, re, subprocess, sys
SRC=os.environ.get("MUT_SRC","/verif/lean"); DST="/tmp/mut/lean"; LOG="/verif/seeded/LOG.jsonl"
def sync():
    os.makedirs(DST, exist_ok=True)
    subprocess.run(["rsync","-a","--delete",SRC+"/",DST+"/"],check=True) if subprocess.run(["which","rsync"],capture_output=True).returncode==0 else subprocess.run(f"rm -rf {DST} && cp -a {SRC} {DST}",shell=True,check=True)
def decl(path,line):
    L=open(path).read().split("\n")
    for i in range(min(line,len(L))-1,-1,-1):
        m=re.match(r"\s*(?:private |protected |noncomputable |@\[[^\]]*\] ?)*(theorem|lemma|def|example|instance|structure|abbrev)\s*([^\s:({\[]*)",L[i])
        if m: return m.group(2) or (m.group(1)+"@"+str(i+1))
    return "?"
def run(m):
    sync()
    p=os.path.join(DST,m["file"]); s=open(p).read()
    assert s.count(m["old"])>=1, ("old text not found", m["old"])
    s=s.replace(m["old"],m["new"],1); open(p,"w").write(s)
    r=subprocess.run(["lake","build"],cwd=DST,capture_output=True,text=True)
    out=r.stdout+r.stderr
    fails=[]
    for f,l in re.findall(r"error: (Verif/\S+\.lean):(\d+):\d+",out):
        d=decl(os.path.join(DST,f),int(l))
        d=f[6:-5].replace("/",".")+":"+d
        if d not in fails: fails.append(d)
    return r.returncode, fails, out
def main():
    specs=json.load(open(sys.argv[1]))
    for m in specs:
        rc,fails,out=run(m)
        ent={"definition":m["definition"],"edit":m["edit"],"claim":m["claim"],"theorems_failed":fails,"theorems_tightened":m.get("tightened",[])}
        if rc==0: ent["note"]=m.get("note","SURVIVED: everything still builds")
        print(json.dumps(ent))
        if "--dry" not in sys.argv:
            open(LOG,"a").write(json.dumps(ent)+"\n")
    subprocess.run(["rm","-rf",DST])
main()
