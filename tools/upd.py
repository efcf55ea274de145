import json,sys
st=json.load(open('/verif/tools/status.json'))
new=json.load(sys.stdin)
st.update(new.get('status',{}))
json.dump(st,open('/verif/tools/status.json','w'),indent=1)
with open('/verif/properties.jsonl','a') as f:
    for p in new.get('props',[]): f.write(json.dumps(p)+'\n')
