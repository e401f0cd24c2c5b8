#!/usr/bin/env python3
"""Apply each wrong edit of a JSON file to a scratch copy of the Lean project, rebuild, and report which
declarations fail.  usage: mutate.py mutants.json [outfile].  Each mutant: {"file", "def", "old", "new", "edit", "claim"}."""
import json, os, re, shutil, subprocess, sys
SRC='/verif/lean'; DST='/tmp/mut/lean'
muts=json.load(open(sys.argv[1]))
out=sys.argv[2] if len(sys.argv)>2 else '/tmp/mut/out.jsonl'
os.makedirs('/tmp/mut',exist_ok=True)
def sync():
    subprocess.run(['rsync','-a','--delete',SRC+'/',DST+'/'],check=True) if shutil.which('rsync') else subprocess.run(f'rm -rf {DST}; cp -a {SRC} {DST}',shell=True,check=True)
if not os.environ.get("NOSYNC"): sync()
decl=re.compile(r'^\s*(?:private |noncomputable |@\[[^\]]*\] )*(theorem|lemma|def|example|instance|structure|inductive)\s*([^\s:({\[]*)')
def declat(path,line):
    ls=open(os.path.join(DST,path)).read().split('\n')
    for i in range(min(line,len(ls))-1,-1,-1):
        m=decl.match(ls[i])
        if m: return f'{m.group(2) or "example"}'+(f'@{path}:{i+1}' if m.group(1)=='example' else '')
    return path
imports={}
def blocked(badmods):
    """property theorems in modules that depend on a failed module"""
    imp={}
    for d,_,fs in os.walk(DST+'/Verif'):
        for f in fs:
            if f.endswith('.lean'):
                p=os.path.relpath(os.path.join(d,f),DST); m=p[:-5].replace('/','.')
                t=open(os.path.join(DST,p)).read()
                imp[m]=(re.findall(r'^import (Verif\S*)',t,re.M),re.findall(r'^theorem (C\d\d\w*)',t,re.M))
    def dep(m,seen):
        if m in seen: return
        seen.add(m)
        for x in imp.get(m,([],))[0]: dep(x,seen)
    res=[]
    for m,(_,ths) in imp.items():
        if not ths or m in badmods: continue
        s=set(); dep(m,s)
        if s & badmods: res+=ths
    return sorted(res)
for k,mu in enumerate(muts):
    p=os.path.join(DST,mu['file']); orig=open(p).read()
    n=orig.count(mu['old'])
    if n!=1:
        print(k,'BAD MATCH',n,mu['edit']); continue
    open(p,'w').write(orig.replace(mu['old'],mu['new']))
    # -q keep going: lake continues with independent modules
    r=subprocess.run(['lake','build'],cwd=DST,capture_output=True,text=True)
    txt=r.stdout+r.stderr
    fails=[];mods=set()
    for m in re.finditer(r'error: (Verif/\S+\.lean):(\d+):\d+',txt):
        d=declat(m.group(1),int(m.group(2)))
        mods.add(m.group(1)[:-5].replace('/','.'))
        if d not in fails: fails.append(d)
    b=blocked(mods)
    rec=dict(mutant=k,definition=mu['def'],edit=mu['edit'],claim=mu['claim'],survived=r.returncode==0,failed=fails,blocked=b)
    print(json.dumps(rec),flush=True)
    with open(out,'a') as f: f.write(json.dumps(rec)+'\n')
    open(p,'w').write(orig)
