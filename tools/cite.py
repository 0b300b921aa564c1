#!/usr/bin/env python3
"""Replace {{path@symbol}} in Lean files by path:start-end, looking the symbol up in /repo."""
import re,sys,os
def scm_range(lines,sym):
    pats=[r'^\s*\(define(-[a-z]+)?\*?\s+\(?'+re.escape(sym)+r'(?=[\s()\]]|$)',
          r'^\s*\(define-[a-z0-9/-]+\s+\(?'+re.escape(sym)+r'(?=[\s()]|$)',
          r'^\s*\[?\(?define.*[\s(]'+re.escape(sym)+r'(?=[\s()]|$)']
    for p in pats:
        for i,l in enumerate(lines):
            if re.search(p,l):
                # paren match
                depth=0;j=i;instr=False;esc=False
                started=False
                while j<len(lines):
                    s=lines[j];k=0
                    while k<len(s):
                        c=s[k]
                        if instr:
                            if c=='\\': k+=2; continue
                            if c=='"': instr=False
                        else:
                            if c==';': break
                            if c=='"': instr=True
                            elif c=='#' and s[k:k+2]=='#\\': k+=3; continue
                            elif c in '([{': depth+=1; started=True
                            elif c in ')]}':
                                depth-=1
                        k+=1
                        if started and depth==0: return i+1,j+1
                    j+=1
                return i+1,len(lines)
    return None
def c_range(lines,sym):
    for i,l in enumerate(lines):
        if re.match(r'^\s*#\s*define\s+'+re.escape(sym)+r'\b',l):
            j=i
            while lines[j].rstrip().endswith('\\'): j+=1
            return i+1,j+1
    for i,l in enumerate(lines):
        if re.match(r'^[A-Za-z_].*\b'+re.escape(sym)+r'\s*\(',l) or re.match(r'^'+re.escape(sym)+r'\s*\(',l):
            # find ; or { first
            j=i
            while j<len(lines) and not re.search(r'[;{]',re.sub(r'/\*.*?\*/','',lines[j])): j+=1
            if j>=len(lines): continue
            m=re.search(r'[;{]',re.sub(r'/\*.*?\*/','',lines[j])).group()
            if m==';': continue
            k=j
            while k<len(lines) and not lines[k].startswith('}'): k+=1
            return i+1,k+1
    for i,l in enumerate(lines):
        if re.search(r'\b'+re.escape(sym)+r'\b',l) and re.match(r'^(typedef|struct|enum|static)',l):
            k=i
            while k<len(lines) and not lines[k].startswith('}'): k+=1
            return i+1,k+1
    return None
def resolve(path,sym):
    f=os.path.join('/repo',path)
    lines=open(f,errors='replace').read().split('\n')
    r=None
    if path.endswith(('.c','.h')): r=c_range(lines,sym)
    if r is None: r=scm_range(lines,sym)
    if r is None and not path.endswith(('.c','.h')): r=c_range(lines,sym)
    if r is None: print('UNRESOLVED',path,sym); return None
    return r
for fn in sys.argv[1:]:
    t=open(fn).read()
    def sub(m):
        r=resolve(m.group(1),m.group(2))
        if r is None: return m.group(0)
        return f"{m.group(1)}:{r[0]}-{r[1]} `{m.group(2)}`" if r[0]!=r[1] else f"{m.group(1)}:{r[0]} `{m.group(2)}`"
    n=re.sub(r'\{\{([^@{}]+)@([^{}]+?)\}\}',sub,t)
    if n!=t: open(fn,'w').write(n)
