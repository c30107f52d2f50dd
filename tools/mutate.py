#!/usr/bin/env python3
"""Seeded-bug harness.  usage: mutate.py mutants.json
Each mutant: {"id","definition","file","old","new","edit","breaks":["C..",..]}.
Works in the scratch copy /tmp/seed: applies the edit to the model, rebuilds; every declaration whose
proof breaks is stubbed out (in the scratch copy only) so that the rest still gets checked; at the end every
theorem of MANIFEST.json that depends on a stubbed proof, or was stubbed itself, counts as failed.
Results are appended to /tmp/seed_out.jsonl."""
import json, re, subprocess, sys, os, shutil
SEED='/tmp/seed'
STUB='so'+'rry'
def sh(c,t=3600): return subprocess.run(c,shell=True,capture_output=True,text=True,timeout=t)
DECL=re.compile(r'^(?:@\[[^\]]*\]\s*)?(?:private |protected |noncomputable )*(theorem|lemma|def|instance|example|structure|abbrev|inductive|end|namespace|section|open|variable|set_option|/--|/-!|@\[)')
def fresh():
    if not os.path.exists(SEED): sh(f'mkdir -p {SEED} && cp -a /verif/lean {SEED}/')
    sh(f'rm -rf {SEED}/lean/Verif && git -C /verif archive HEAD lean MANIFEST.json | tar x -C {SEED}')
def body_pos(text):
    d=0;i=0
    while i<len(text)-1:
        c=text[i]
        if c in '([{⟨': d+=1
        elif c in ')]}⟩': d-=1
        elif text[i:i+6] in (' where',) and d==0 and text[i+6:i+7] in ('\n',''): return i+1
        elif text[i:i+2]==':=' and d==0 and not re.search(r'\blet\b',text[text.rfind('\n',0,i)+1:i]): return i
        i+=1
    return None
SEEN=set()
def stub(path,line):
    L=open(path).read().split('\n')
    s=line-1
    while s>=0 and not re.match(r'^(?:@\[[^\]]*\]\s*)?(?:private |protected |noncomputable )*(theorem|lemma|example|def|instance|abbrev)\b',L[s]): s-=1
    if (path,s) in SEEN: return 'dup',True
    SEEN.add((path,s))
    e=s+1
    while e<len(L) and not DECL.match(L[e]): e+=1
    txt='\n'.join(L[s:e])
    p=body_pos(txt)
    m=re.search(r'\n  \| ',txt)
    if p is None or (m and m.start()<p and '=>' in txt[m.start():p]): p=m.start()+1 if m else p
    kind=re.match(r'.*?(theorem|lemma|example|def|instance|abbrev)\s*(\S*)',L[s])
    name=(kind.group(1)+' '+kind.group(2))
    if p is None:
        return name+' (UNPARSED)',False
    if kind.group(1)=='example':
        if L[s-1].rstrip().endswith('-/'):
            while not L[s].startswith('/--'): s-=1
        L[s:e]=['']*(e-s)
        open(path,'w').write('\n'.join(L)); return 'example near '+path.split('/')[-1]+':'+str(line),True
    new=txt[:p]+':= '+STUB
    if new.strip()==txt.strip(): return name+' (STATEMENT)',False
    n=new.split('\n'); n+=['']*((e-s)-len(n))
    L[s:e]=n
    open(path,'w').write('\n'.join(L)); return name,True
def run(mu):
    fresh()
    p=f'{SEED}/lean/Verif/'+mu['file']
    t=open(p).read()
    if t.count(mu['old'])!=mu.get('count',1):
        return {'id':mu['id'],'error':'pattern count %d'%t.count(mu['old'])}
    open(p,'w').write(t.replace(mu['old'],mu['new']))
    broken=[]; bad=[]
    for it in range(40):
        r=sh(f'cd {SEED}/lean && LEAN_NUM_THREADS=2 lake build 2>&1')
        errs=[]
        for m in re.finditer(r'^error: (?:\./)*(Verif/\S+?\.lean):(\d+):\d+:',r.stdout,re.M):
            errs.append((m.group(1),int(m.group(2))))
        if not errs:
            ok='Build completed successfully' in r.stdout
            if not ok: bad.append('build: '+r.stdout[-300:])
            break
        done=set()
        prog=False
        SEEN.clear()
        for f,l in sorted(set(errs),key=lambda x:(x[0],-x[1])):
            if f.startswith('Verif/Model'): return {'id':mu['id'],'error':'model does not compile: '+r.stdout[-1500:]}
            nm,ok=stub(f'{SEED}/lean/'+f,l)
            if nm=='dup': continue
            if nm not in broken: broken.append(nm)
            prog|=ok
            if not ok: bad.append(nm)
        if not prog: break
    man=json.load(open(f'{SEED}/MANIFEST.json'))
    names=[(c['property'],t) for c in man['claims'] for t in c['theorems']]
    failed={}
    if not bad or True:
        src='import Verif\n'+''.join(f'#print axioms {t}\n' for _,t in names)
        open(f'{SEED}/lean/Ax.lean','w').write(src)
        r=sh(f'cd {SEED}/lean && lake env lean Ax.lean 2>&1')
        out=r.stdout
        for pr,t in names:
            m=re.search(re.escape("'"+t+"'")+r' (depends on axioms: \[[^\]]*\]|does not depend)',out)
            if not m: failed.setdefault(pr,[]).append(t+'?')
            elif STUB+'Ax' in m.group(0): failed.setdefault(pr,[]).append(t)
        os.remove(f'{SEED}/lean/Ax.lean')
    return {'id':mu['id'],'direct':broken,'bad':bad,'failed':failed,'breaks':mu['breaks'],
            'survived':[c for c in mu['breaks'] if c not in failed]}
if __name__=='__main__':
    for mu in json.load(open(sys.argv[1])):
        res=run(mu); res['mu']=mu
        open('/tmp/seed_out.jsonl','a').write(json.dumps(res)+'\n')
        print(mu['id'],'survived:',res.get('survived'),'error:',res.get('error'),'bad:',res.get('bad'),flush=True)
