#!/usr/bin/env python3
import json,os
C=[]
def c(prop,status,theorems,note=""):
    C.append(dict(property=prop,status=status,theorems=["ExactReal.Props."+t for t in theorems.split()],note=note))
exec(open(os.path.join(os.path.dirname(__file__),"claims.py")).read())
json.dump({"claims":C},open(os.path.join(os.path.dirname(__file__),"..","MANIFEST.json"),"w"),indent=1,ensure_ascii=False)
print(len(C))
