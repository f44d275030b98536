#!/usr/bin/env python3
"""Seeded-bug runner for a single module.

usage: mutate_fast.py spec.json
Same spec as mutate.py. The edited module is checked alone and without its examples: a false statement closed by
kernel evaluation can exhaust memory before Lean reports an error, and the general theorems are what is tested.
Edits after which the module is still accepted are printed with SURV and not logged: run mutate.py for those.
"""
import json, re, subprocess, sys, tempfile
LOG="/verif/seeded/LOG.jsonl"
def strip(s):
    if "/-! ## Example" in s:
        i=s.index("/-! ## Example"); s=s[:i]+s[s.rindex("\nend "):]
    out=[]; skip=False
    for l in s.split("\n"):
        if l.startswith("example"): skip=True
        elif skip and not l.startswith(" "): skip=False
        out.append("" if skip else l)
    return re.sub(r"/--((?:(?!-/).)*)-/\n(?=\n)",lambda m:"\n"*m.group(0).count("\n"),"\n".join(out),flags=re.S)
def decl(L,line):
    for i in range(min(line,len(L))-1,-1,-1):
        m=re.match(r"\s*(?:private |protected |noncomputable |@\[[^\]]*\] ?)*(theorem|lemma|def|instance|structure|abbrev)\s*([^\s:({\[]*)",L[i])
        if m: return m.group(2) or m.group(1)+"@"+str(i+1)
    return "?"
for m in json.load(open(sys.argv[1])):
    s=open("/verif/lean/"+m["file"]).read(); assert m["old"] in s, m
    s=strip(s.replace(m["old"],m["new"],1))
    with tempfile.NamedTemporaryFile("w",suffix=".lean") as t:
        t.write(s); t.flush()
        r=subprocess.run(["lake","env","lean","-M","5000",t.name],cwd="/verif/lean",capture_output=True,text=True)
    fails=[]
    for l in re.findall(r"\.lean:(\d+):\d+: error",r.stdout+r.stderr):
        d=m["file"][6:-5].replace("/",".")+":"+decl(s.split("\n"),int(l))
        if d not in fails: fails.append(d)
    e={"definition":m["definition"],"edit":m["edit"],"claim":m["claim"],"theorems_failed":fails,"theorems_tightened":m.get("tightened",[])}
    print(("" if fails else "SURV ")+json.dumps(e)+("" if fails else (r.stdout+r.stderr)[:200]),flush=True)
    if fails: open(LOG,"a").write(json.dumps(e)+"\n")
