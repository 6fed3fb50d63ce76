import json,sys
# usage: regtool.py file.json : {"props":[[...]], "status":{...}}
d0=json.load(open(sys.argv[1]))
P='/verif/properties.jsonl'
ids={json.loads(l)['id'] for l in open(P) if l.strip()}
with open(P,'a') as f:
    for i,t,s,q,w,a in d0.get("props",[]):
        if i not in ids: f.write(json.dumps(dict(id=i,title=t,statement=s,quantifier=q,why_tests_cant=w,anchors=a),ensure_ascii=False)+'\n')
S='/verif/tools/status.json'
d=json.load(open(S)); d.update(d0["status"])
json.dump(d,open(S,'w'),indent=1,ensure_ascii=False)
