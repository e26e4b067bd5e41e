#!/usr/bin/env python3
"""Systematic mutation of all definitions of the model, in a scratch copy outside of /verif.  Prints mutants that no proof notices.
usage: automutate.py SEED [MAXPERDEF]   (appends to /tmp/automut/log.jsonl)"""
import json,os,re,subprocess,sys,shutil,random,signal
SRC="/verif/lean"; DST="/tmp/automut/lean"; LOG="/tmp/automut/log.jsonl"
RULES=[(r" ≤ "," < "),(r" < "," ≤ "),(r" \+ 1\b",""),(r" - 1\b",""),(r" && "," || "),(r" \|\| "," && "),(r" ∧ "," ∨ "),(r" ∨ "," ∧ "),
 (r"\btrue\b","false"),(r"\bfalse\b","true"),(r"\bif (?!h : )(?!let )([^\n]*?) then",r"if ¬(\1) then"),(r" = (?=[\w\(0])",None),(r" ≠ "," = "),
 (r" \* 2\b"," * 3"),(r" \+ "," - "),(r" - "," + "),(r" \* "," + "),(r"\bmin\b","max"),(r"\bmax\b","min"),(r"\.1\b",".2"),(r"\.2\b",".1"),
 (r"\.near\b",".floor"),(r"\.ceil\b",".floor"),(r"\.floor\b",".ceil"),(r"\b0\b","1"),(r"\b1\b","0"),(r"\b2\b","3"),(r"\bx y\b","y x"),(r"\ba b\b","b a"),
 (r"\bsome (\w+)\b","none"),(r"\.map\b (\([^\n()]*\)|\w+)",".map id"),(r" ++ "," "),(r"\breturn\b","return")]
def defs(path):
    s=open(path).read()
    # positions of definitions
    st=[m.start() for m in re.finditer(r"^(?:@\[[^\]]*\]\s*)?(?:noncomputable\s+|private\s+|protected\s+)*(?:def|instance|abbrev)\b",s,re.M)]
    for a in st:
        b=len(s)
        for m in re.finditer(r"^(?:/--|/-!|def |theorem |instance |abbrev |structure |inductive |end |namespace |variable |section|@\[|noncomputable|deriving|omit|open|private)",s[a+1:],re.M):
            b=a+1+m.start(); break
        yield s,a,b
def muts(path):
    for s,a,b in defs(path):
        body=s[a:b]; name=re.match(r"(?:@\[[^\]]*\]\s*)?(?:noncomputable\s+|private\s+|protected\s+)*(?:def|instance|abbrev)\s+(\S+)",body)
        name=name.group(1) if name else "instance"
        k=body.find(":=")
        k2=body.find("\n  |")
        k=min(x for x in (k,k2,10**9) if x>=0)
        if k==10**9: continue
        L=[]
        for pat,rep in RULES:
            if rep is None: continue
            for m in re.finditer(pat,body):
                if m.start()<k: continue
                new=body[:m.start()]+m.expand(rep)+body[m.end():]
                if new!=body: L.append((a,b,new,f"{m.group(0)!r} -> {m.expand(rep)!r} at {body[max(0,m.start()-30):m.end()+20]!r}"))
        yield name,L
def run(path,s,a,b,new):
    p=DST+path[len(SRC):]
    open(p,"w").write(s[:a]+new+s[b:])
    pr=subprocess.Popen(["nice","-n","10","lake","build"],cwd=DST,stdout=subprocess.PIPE,stderr=subprocess.STDOUT,text=True,start_new_session=True)
    res="survived"; where=""
    for l in pr.stdout:
        m=re.match(r"error: (Verif/(\w+)/\S+?\.lean):(\d+)",l)
        if m:
            res="invalid" if m.group(2)=="Model" else "killed"; where=m.group(1)+":"+m.group(3)
            os.killpg(pr.pid,signal.SIGKILL); break
    pr.wait()
    if res=="survived" and pr.returncode!=0: res="error"
    shutil.copy(path,p)
    return res,where
if __name__=="__main__":
    os.makedirs("/tmp/automut",exist_ok=True)
    if not os.path.exists(DST): shutil.copytree(SRC,DST,symlinks=True)
    subprocess.run(f"cd {SRC} && tar --exclude=.lake -cf - . | tar -C {DST} -xf -",shell=True,check=True)
    subprocess.run(["lake","build"],cwd=DST,capture_output=True)
    random.seed(int(sys.argv[1])); per=int(sys.argv[2]) if len(sys.argv)>2 else 1
    done=set()
    if os.path.exists(LOG):
        for l in open(LOG): d=json.loads(l); done.add((d["file"],d["name"],d["edit"]))
    W=[]
    only=os.environ.get("FILES","").split()
    for f in sorted(os.listdir(SRC+"/Verif/Model")):
        if only and f not in only: continue
        path=SRC+"/Verif/Model/"+f
        s=open(path).read()
        for name,L in muts(path):
            random.shuffle(L)
            for (a,b,new,d) in L[:per]: W.append((path,s,a,b,new,name,d))
    random.shuffle(W)
    print(len(W),"mutants",flush=True)
    for path,s,a,b,new,name,d in W:
        f=os.path.basename(path)
        if (f,name,d) in done: continue
        if open(path).read()!=s: continue
        res,where=run(path,s,a,b,new)
        open(LOG,"a").write(json.dumps(dict(file=f,name=name,edit=d,result=res,where=where),ensure_ascii=False)+"\n")
        if res=="survived": print("SURVIVED",f,name,d,flush=True)
