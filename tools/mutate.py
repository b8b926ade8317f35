#!/usr/bin/env python3
"""Apply realistic bugs to a scratch copy of the model, rebuild, and log which theorems fail.
usage: mutate.py edits.json   -- a list of {file, def, old, new, edit, claim}"""
import sys, json, subprocess, shutil, os, re
V='/verif/lean'; M='/tmp/mut'
os.makedirs(M, exist_ok=True)
def sync():
    subprocess.run(['rsync','-a','--delete',V+'/',M+'/'],check=True) if shutil.which('rsync') else (shutil.rmtree(M), shutil.copytree(V,M,symlinks=True))
def thm_at(path, line):
    name=None
    for i,l in enumerate(open(path),1):
        m=re.match(r'\s*(?:private |protected |@\[[^\]]*\] *)*(theorem|def|example|instance|lemma|abbrev|structure|inductive)\b\s*(\S+)?',l)
        if m and i<=line: name=(m.group(2) if m.group(1)!='example' else 'example@%d'%i)
    return name
imports={}
def props_depending(mods):
    deps={}
    for root,_,fs in os.walk(M+'/Verif'):
        for f in fs:
            if f.endswith('.lean'):
                p=os.path.join(root,f); mod=os.path.relpath(p,M)[:-5].replace('/','.')
                deps[mod]=re.findall(r'^import (Verif\S*)',open(p).read(),re.M)
    bad=set(mods); ch=True
    while ch:
        ch=False
        for m,d in deps.items():
            if m not in bad and any(x in bad for x in d): bad.add(m); ch=True
    return sorted(m for m in bad if '.Props.' in m)
for e in json.load(open(sys.argv[1])):
    sync()
    p=os.path.join(M,'Verif',e['file'])
    s=open(p).read()
    if s.count(e['old'])!=1:
        print('SKIP (old occurs %d times):'%s.count(e['old']), e['edit']); continue
    open(p,'w').write(s.replace(e['old'],e['new']))
    r=subprocess.run(['lake','build'],cwd=M,capture_output=True,text=True)
    out=r.stdout+r.stderr
    fails={}
    for m in re.finditer(r'error: (?:\./)?(Verif/\S+?\.lean):(\d+):\d+',out):
        t=thm_at(os.path.join(M,m.group(1)),int(m.group(2)))
        fails.setdefault(m.group(1)[:-5].replace('/','.'),[])
        if t not in fails[m.group(1)[:-5].replace('/','.')]: fails[m.group(1)[:-5].replace('/','.')].append(t)
    rec={"definition":e['def'],"edit":e['edit'],"claim_broken":e['claim'],
      "theorems_failed":fails,"property_modules_not_built":props_depending(fails.keys()) if fails else [],"theorems_tightened":[]}
    print(json.dumps(rec))
    if not fails: print('  ^^^^ SURVIVED', r.returncode)
    open('/tmp/mutlog.jsonl','a').write(json.dumps(rec)+'\n')
