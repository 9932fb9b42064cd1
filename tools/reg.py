import json,sys
sys.path.insert(0,'/tmp/r')
def reg(props,imports):
    V='/verif/'
    L=[json.loads(l) for l in open(V+'properties.jsonl')]
    ids={p['id']:i for i,p in enumerate(L)}
    n=json.load(open(V+'tools/notes.json'))
    d=open(V+'DESIGN.md').read().split('\n')
    for p in props:
        design=p.pop('design'); note=p.pop('note')
        if p['id'] in ids: L[ids[p['id']]]=p
        else: L.append(p)
        n[p['id']]={"note":note}
        ln=f"* **{p['id']} {p['title']}** - {design}"
        ex=[k for k,l in enumerate(d) if l.startswith(f"* **{p['id']} ")]
        if ex: d[ex[0]]=ln
        else:
            last=max(k for k,l in enumerate(d) if l.startswith('* **C'))
            d.insert(last+1,ln)
    L.sort(key=lambda p:int(p['id'][1:]))
    open(V+'properties.jsonl','w').write(''.join(json.dumps(p)+'\n' for p in L))
    json.dump(n,open(V+'tools/notes.json','w'),indent=1)
    open(V+'DESIGN.md','w').write('\n'.join(d))
    f=V+'lean/Verif.lean'; s=open(f).read()
    for i in imports:
        if f"import {i}\n" not in s: s=s.rstrip('\n')+f"\nimport {i}\n"
    open(f,'w').write(s)
