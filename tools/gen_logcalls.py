#!/usr/bin/env python3
"""Generates lean/Verif/Model/LogCalls.lean from the calls of info() in /repo/src/hubbard."""
import re, os, glob
R='/repo/src/hubbard/'
out=[]
for f in sorted(glob.glob(R+'include/*.hpp')+glob.glob(R+'real_space/*.hpp')+glob.glob(R+'momentum_space/*.hpp')+glob.glob(R+'*.cpp')):
    s=open(f,encoding='utf-8').read()
    for m in re.finditer(r'(?:get_loggers\(\)\.)?(main|io|ode)->info\(',s):
        i=m.end(); depth=1; inq=False; parts=[]; cur=''
        while depth:
            c=s[i]
            if inq:
                cur+=c
                if c=='\\': cur+=s[i+1]; i+=1
                elif c=='"': inq=False
            else:
                if c=='"': inq=True; cur+=c
                elif c=='(': depth+=1; cur+=c
                elif c==')':
                    depth-=1
                    if depth: cur+=c
                elif c==',' and depth==1: parts.append(cur); cur=''
                else: cur+=c
            i+=1
        parts.append(cur)
        parts=[' '.join(p.split()) if k else p.strip() for k,p in enumerate(parts)]
        fmt=parts[0]
        mm=re.fullmatch(r'(?:u8)?"((?:[^"\\]|\\.)*)"',fmt)
        assert mm,(f,fmt)
        line=s.count('\n',0,m.start())+1
        out.append((os.path.relpath(f,R),line,m.group(1),mm.group(1),parts[1:]))
h='''import Verif.Model.Log

/-!
# The calls of `info` in the programs

Generated by `tools/gen_logcalls.py` from the sources: file, line, logger, format string and number of arguments of every
call of `info` in `src/hubbard`.
-/

set_option autoImplicit false

namespace Ieompp.Log

/-- One call of `info`. checkpoint.hpp:23-84, application.hpp:53-104. -/
structure Call where
  file : String
  line : ℕ
  logger : Logger
  format : String
  args : ℕ
  deriving DecidableEq

'''
byfile={}
for o in out: byfile.setdefault(o[0],[]).append(o)
names=[]
body=''
for k,(f,l) in enumerate(byfile.items()):
    n='calls_'+re.sub(r'\W','_',f)
    names.append(n)
    b=os.path.basename(f)
    body+=f'/-- {f}: every call of `info`. {b}:{l[0][1]}-{l[-1][1]}. -/\ndef {n} : List Call :=\n  ['
    body+=',\n   '.join('⟨"%s", %d, .%s, "%s", %d⟩'%(o[0],o[1],o[2],o[3],len(o[4])) for o in l)+']\n\n'
body+='/-- All calls of `info` in the programs. application.hpp:53-104, checkpoint.hpp:23-84. -/\ndef calls : List Call :=\n  '+' ++\n  '.join(names)+'\n\nend Ieompp.Log\n'
open('/verif/lean/Verif/Model/LogCalls.lean','w').write(h+body)
print(len(out))
