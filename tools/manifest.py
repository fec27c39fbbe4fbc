import json,collections
C=collections.OrderedDict()
exec(open('/tmp/w/claims.py').read())
json.dump({"claims":[{"property":k,**v} for k,v in C.items()]},open('/verif/MANIFEST.json','w'),indent=1)
