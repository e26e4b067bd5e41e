#!/usr/bin/env python3
"""Apply mutations (tools/mutations/*.json) to a scratch copy of the model outside /verif and record which theorems fail.
usage: mutate.py FILE.json [index...]   (appends to seeded/LOG.jsonl)"""
import json,os,re,subprocess,sys,shutil
SRC="/verif/lean"; DST="/tmp/mut/lean"
def sync():
    os.makedirs(DST,exist_ok=True)
    subprocess.run(["rsync","-a","--delete","--exclude",".lake",SRC+"/",DST+"/"],check=True) if shutil.which("rsync") else \
    subprocess.run(f"mkdir -p {DST} && cd {SRC} && find . -path ./.lake -prune -o -type f -print | cpio -pdum --quiet {DST} 2>/dev/null || (cd {SRC} && tar --exclude=.lake -cf - . | tar -C {DST} -xf -)",shell=True,check=True)
    if not os.path.exists(DST+"/.lake"): shutil.copytree(SRC+"/.lake",DST+"/.lake",symlinks=True)
def build():
    r=subprocess.run(["lake","build"],cwd=DST,capture_output=True,text=True)
    return r.stdout+r.stderr,r.returncode
def enclosing(path,line):
    name=None
    for i,l in enumerate(open(path),1):
        m=re.match(r"\s*(?:@\[[^\]]*\]\s*)?(?:private\s+|protected\s+|noncomputable\s+)*(theorem|lemma|def|instance|example|abbrev)\b\s*(\S*)",l)
        if m: name=m.group(2) if m.group(1) not in("example","instance") else m.group(1)
        if i>=line: break
    return name
def run(m):
    sync()
    p=DST+"/Verif/"+m["file"]; s=open(p).read()
    assert s.count(m["old"])==1,(m["file"],m["old"],s.count(m["old"]))
    open(p,"w").write(s.replace(m["old"],m["new"]))
    out,rc=build()
    failed=[]
    for f,l in re.findall(r"^error: (Verif/\S+\.lean):(\d+):",out,re.M):
        n=enclosing(DST+"/"+f,int(l))
        e=f"{f}:{n}"
        if e not in failed: failed.append(e)
    blocked=sorted(set(re.findall(r"^✖ \[\d+/\d+\] Building (\S+)",out,re.M)))
    shutil.copy(SRC+"/Verif/"+m["file"],p)
    return dict(definition=m["def"],file="lean/Verif/"+m["file"],edit=m["edit"],claim_broken=m["claim"],theorems_failed=failed,modules_failed=blocked,
      survived=rc==0,tightened=m.get("tightened",[]))
if __name__=="__main__":
    M=json.load(open(sys.argv[1])); idx=[int(i) for i in sys.argv[2:]] or range(len(M))
    for i in idx:
        try: r=run(M[i])
        except AssertionError as e: print("BAD",i,e); continue
        print(i,"SURVIVED" if r["survived"] else "killed",M[i]["def"],M[i]["edit"],r["theorems_failed"][:4],flush=True)
        open("/verif/seeded/LOG.jsonl","a").write(json.dumps(r,ensure_ascii=False)+"\n")
