#!/usr/bin/env python3
"""Seeded-bug runner. usage: mutate.py FILE.json   (list of {file, def, old, new, edit, claim}); appends to seeded/LOG.jsonl
Works in a scratch copy /tmp/mut of /verif/lean (which must be built)."""
import json, subprocess, sys, re, os
SRC='/verif/lean/'; DST='/tmp/mut/'
muts=json.load(open(sys.argv[1]))
only=set(sys.argv[2:])
def decl_at(path,line):
    L=open(path).read().split('\n')
    for i in range(min(line,len(L))-1,-1,-1):
        m=re.match(r'\s*(?:@\[.*\]\s*)?(?:noncomputable |private |protected )*(theorem|lemma|def|example|structure|instance|abbrev)\s*([^\s:({\[]*)',L[i])
        if m and not L[i].startswith('   '): return (m.group(2) or 'example@%d'%(i+1))
    return '?'
for k,m in enumerate(muts):
    if only and str(k) not in only: continue
    subprocess.run('rm -rf /tmp/mut && cp -a /verif/lean /tmp/mut',shell=True,check=True)
    p=DST+'Verif/'+m['file']; t=open(p).read()
    if t.count(m['old'])!=1:
        print(k,'BAD PATTERN count',t.count(m['old']),m['file'],m['old'][:60]); continue
    open(p,'w').write(t.replace(m['old'],m['new']))
    try:
        r=subprocess.run(['lake','build'],cwd=DST,capture_output=True,text=True,timeout=1500)
        out=r.stdout+r.stderr
    except subprocess.TimeoutExpired:
        out='error: timeout'; r=None
    failed=[]; modelerr=False
    for f,l in re.findall(r'error: (Verif/\S+\.lean):(\d+):',out):
        d=decl_at(DST+f,int(l))
        if f.startswith('Verif/Model'): modelerr=True
        if d not in failed: failed.append(d)
    blocked=sorted(set(re.findall(r'^- (Verif\.\S+)',out,re.M)))
    status='caught' if failed else ('SURVIVED' if r and r.returncode==0 else 'other')
    if modelerr: status='MODEL DOES NOT COMPILE'
    print(k,status,m['def'],'|',m['edit'],'|',failed[:8],flush=True)
    if status=='caught':
        json.dump({"definition":m['def'],"file":m['file'],"edit":m['edit'],"claim_broken":m['claim'],"theorems_failed":failed,"theorems_tightened":m.get("tightened",[])},open('/verif/seeded/LOG.jsonl','a')); open('/verif/seeded/LOG.jsonl','a').write('\n')
    elif status!='SURVIVED': print(out[-1500:])
