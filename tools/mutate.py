#!/usr/bin/env python3
"""Mutation tests. Usage: mutate.py mutations.json [start]
Each entry: {file, definition, old, new, edit, claim, [count]}.  Works in /tmp/mut; appends to results file."""
import json, os, re, subprocess, sys, shutil
SRC='/verif/lean'; DST='/tmp/mut/lean'; BASE='/tmp/mut/base'
OUT='/tmp/mut/results.jsonl'
def sync(a,b):
    subprocess.run(['rsync','-a','--delete',a+'/',b+'/'],check=True) if shutil.which('rsync') else (
        subprocess.run(f'rm -rf {b} && cp -a {a} {b}',shell=True,check=True))
def enclosing(path,line):
    try: L=open(path).read().split('\n')
    except Exception: return None
    for i in range(min(line,len(L))-1,-1,-1):
        m=re.match(r'(?:private |@\[[^\]]*\] ?)*(?:noncomputable )?(theorem|lemma|def|instance|example)\b\s*([^\s:({\[]*)',L[i])
        if m: return m.group(2) if m.group(1)!='example' else f'example@{os.path.basename(path)}:{i+1}'
    return None
muts=json.load(open(sys.argv[1])); start=int(sys.argv[2]) if len(sys.argv)>2 else 0
sync(SRC,BASE)
for k,m in enumerate(muts):
    if k<start: continue
    sync(BASE,DST)
    p=f'{DST}/Verif/Model/{m["file"]}.lean'; s=open(p).read()
    n=s.count(m['old'])
    if n!=m.get('count',1):
        print(k,'BAD MATCH',n,m['old'],flush=True); continue
    open(p,'w').write(s.replace(m['old'],m['new']))
    try:
        r=subprocess.run('lake build '+m.get('target','')+' 2>&1',shell=True,cwd=DST,capture_output=True,text=True,timeout=2400); out=r.stdout; rc=r.returncode
    except subprocess.TimeoutExpired as e: out='TIMEOUT'; rc=99
    failed=[]
    for f,l in re.findall(r'error: (\S+?\.lean):(\d+):',out):
        q=f if os.path.isabs(f) else os.path.join(DST,f)
        nm=enclosing(q,int(l))
        if nm and nm not in failed: failed.append(nm)
    mods=re.findall(r'^- (Verif\S*)',out,re.M)
    rec=dict(definition=m['definition'],edit=m['edit'],claim=m['claim'],rc=rc,theorems_failed=failed,modules_failed=mods)
    open(OUT,'a').write(json.dumps(rec)+'\n')
    print(k,m['definition'],'|',m['edit'],'=>', 'SURVIVED' if rc==0 else failed[:8],flush=True)
