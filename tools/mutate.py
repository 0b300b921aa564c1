#!/usr/bin/env python3
"""Seeded-bug harness.  Reads a JSON list of experiments from a file:
 [{"file":"Verif/Model/X.lean","definition":"..","old":"..","new":"..","edit":"..","claim":".."}]
For each: copy lean/ to /tmp/mut, apply, rebuild, report failed theorems (directly failing proofs and
the theorems whose proofs use them), append a line to seeded/LOG.jsonl."""
import json,sys,os,re,subprocess,shutil
SRC='/verif/lean'; DST='/tmp/mut'
def sync():
    subprocess.run(['rsync','-a','--delete','--exclude','.lake',SRC+'/',DST+'/'],check=True) if shutil.which('rsync') else subprocess.run(f'mkdir -p {DST} && find {DST} -mindepth 1 -maxdepth 1 ! -name .lake -exec rm -rf {{}} + && cd {SRC} && tar cf - --exclude=.lake . | tar xf - -C {DST}',shell=True,check=True)
    if not os.path.exists(DST+'/.lake'): subprocess.run(['cp','-a',SRC+'/.lake',DST+'/.lake'],check=True)
def blocks(path):
    out=[];cur=None
    for i,l in enumerate(open(path),1):
        m=re.match(r'(?:@\[[^\]]*\]\s*)?(?:private |protected |noncomputable )*(theorem|lemma|def|example|instance|inductive|structure|abbrev)\s*([^\s:({\[]*)',l)
        if m:
            cur=[m.group(1),m.group(2) or f'example@{i}',i,'']; out.append(cur)
        if cur: cur[3]+=l
    return out
def run(e):
    sync()
    p=DST+'/'+e['file']; s=open(p).read()
    n=s.count(e['old'])
    if n<1 or (n!=1 and not e.get('all')): print('BAD MATCH',n,e['edit']); return
    open(p,'w').write(s.replace(e['old'],e['new']))
    mod=e['file'].split('/')[-1][:-5]
    r=subprocess.run(['lake','build']+e.get('build',['Verif.Props.'+mod]) ,cwd=DST,capture_output=True,text=True,timeout=3000)
    txt=r.stdout+r.stderr
    fails={}
    for m in re.finditer(r'^error: (?:\./+)?(Verif/[^:]+\.lean):(\d+):',txt,re.M):
        fails.setdefault(m.group(1),set()).add(int(m.group(2)))
    direct=set(); model=[]
    for f,ls in fails.items():
        bs=blocks(DST+'/'+f)
        for ln in ls:
            b=None
            for x in bs:
                if x[2]<=ln: b=x
            if b: 
                (model if '/Model/' in f else direct.add(b[1]) or []) 
                if '/Model/' in f: model.append(b[1])
    # transitive over all proof/props files
    allb=[]
    for d in ('Proof','Props','Spec'):
        if not os.path.isdir(f'{DST}/Verif/{d}'): continue
        for f in os.listdir(f'{DST}/Verif/{d}'): 
            if f.startswith(tuple(e.get('mods',[mod]))) or any(f==os.path.basename(k) for k in fails): allb+= [(f'{d}/{f}',*b) for b in blocks(f'{DST}/Verif/{d}/{f}')]
    bad=set(direct)
    ch=True
    while ch:
        ch=False
        for (f,k,nm,ln,body) in allb:
            if nm in bad: continue
            toks=set(re.findall(r"[\w'.!?₀-₉]+",body))
            toks|={t.split('.')[-1] for t in toks}
            if any((b in toks or b.split('.')[-1] in toks) for b in bad if not b.startswith('example@')): bad.add(nm); ch=True
    props=sorted({nm for (f,k,nm,ln,b) in allb if f.startswith('Props') and nm in bad and k in('theorem','lemma')})
    print('==',e['definition'],'|',e['edit']); print('  direct:',sorted(direct)[:12],'model errs:',model); print('  props:',props)
    if not direct and not model: print('  !!!!! SURVIVED', txt[-500:] if r.returncode else '')
    if '--dry' in sys.argv: return
    with open('/verif/seeded/LOG.jsonl','a') as f:
        f.write(json.dumps({"definition":e['definition'],"file":e['file'],"edit":e['edit'],"claim_broken":e['claim'],"theorems_failed":props,"proofs_failed_directly":sorted(direct),"model_errors":model,"theorems_tightened":e.get('tightened',[])},ensure_ascii=False)+'\n')
for e in json.load(open(sys.argv[1])): run(e)
