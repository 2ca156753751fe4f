#!/usr/bin/env python3
"""claim.py ID STATUS NOTE : set a claim in claims.json"""
import json,sys
p='/verif/tools/claims.json'
d=json.load(open(p))
d[sys.argv[1]]={"status":sys.argv[2],"note":sys.argv[3]}
json.dump(d,open(p,'w'),indent=0)
