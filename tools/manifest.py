#!/usr/bin/env python3
# Generates /verif/MANIFEST.json
import json
C=[]
def c(p,status,theorems,note=""): C.append(dict(property=p,status=status,theorems=theorems.split(),note=note))
exec(open('/verif/tools/claims.py').read())
for x in C: x["theorems"]=[t if t.startswith("Verif.") else "Verif."+t for t in x["theorems"]]
json.dump({"claims":C},open('/verif/MANIFEST.json','w'),indent=1)
