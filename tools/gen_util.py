#!/usr/bin/env python3
"""Extracts the functions of parse/aps-util.c (with the KEY macros of parse/aps-util.h) into
lean/Verif/Model/UtilTables.lean, and the patterns of parse/aps-tree.aps that they implement into
lean/Verif/Spec/UtilPatterns.lean.  Every line of aps-util.c is consumed; the script fails on a line it does not
understand."""
import re,sys
R='/repo/parse/'; OUT='/verif/lean/Verif/'
KW={'def','match','repeat','from','end'}
def q(n): return '«%s»'%n if n in KW else n
# macros
h=open(R+'aps-util.h').read().replace('\\\n',' ')
mac={}
for m in re.finditer(r'#define KEY(\w+) (KEY.*)',h):
    mac[m.group(1)]=re.findall(r'KEY(\w+)',m.group(2))
def expand(k):
    return [x for y in mac[k] for x in expand(y)] if k in mac else [k]
L=open(R+'aps-util.c').read().split('\n'); i=0
fns=[]; line={}
def at(p):
    global i
    m=re.fullmatch(p,L[i])
    if m: i+=1
    return m
def need(p):
    m=at(p)
    if not m: sys.exit('aps-util.c:%d: %r does not match %s'%(i+1,L[i],p))
    return m
while i<len(L):
    if at(r'\s*') or at(r'/\*.*') or at(r' \*.*') or at(r'#include.*') or at(r'extern char .*'): continue
    start=i+1
    m=need(r'(void \*|\w+ )(\w+)\((\w+|void \*) ?\*?(_node|node)\) \{'); f=m.group(2); v=m.group(4)
    m=need(r'  switch \((Declaration_KEY|ABSTRACT_APS_tnode_phylum)\(%s\)\) \{'%v); sw=m.group(1)
    need(r'  default: fatal_error\(.*')
    while at(r'\t\t       .*\);'): pass
    cs=[]
    while True:
        m=at(r'  case KEY(\w+): return (\w+)\((?:\(\w+\))?%s\);'%v)
        if not m: break
        cs.append((m.group(1),m.group(2)))
    need(r'  \}'); need(r'\}')
    fns.append((f,sw,cs)); line[f]=(start,i)
names=[f for f,_,_ in fns]
o=open(OUT+'Model/UtilTables.lean','w')
o.write('''import Verif.Model.AstTables
/-!
# The functions of parse/aps-util.c

Extracted by `tools/gen_util.py`; the script consumes every line of the file.  A label like `case KEYrenaming:` is a
macro of parse/aps-util.h, written out here.
-/
namespace Aps.Util
open Aps.Ast

/-- The functions. -/
inductive Fn where
''')
for f in names: o.write('  | %s\n'%f)
o.write('''  deriving DecidableEq, Repr

/-- What a case calls: an accessor function, or another of the functions. -/
inductive Call where
  | acc (a : Acc)
  | fn (f : Fn)
  deriving DecidableEq, Repr

/-- The cases of the `switch (Declaration_KEY(_node))` of a function, in order. -/
def cases : Fn → List (Con × Call)
''')
for f,sw,cs in fns:
    if sw!='Declaration_KEY': o.write('  | .%s => []\n'%f); continue
    o.write('  -- aps-util.c:%d-%d\n  | .%s => ['%(line[f]+(f,)))
    o.write(', '.join('(.%s, .%s .%s)'%(q(c),'fn' if t in names else 'acc',q(t)) for k,t in cs for c in expand(k))+']\n')
o.write('''
/-- The cases of the `switch (ABSTRACT_APS_tnode_phylum(_node))` of `some_use_u` (aps-util.c:%d-%d). -/
def useCases : List (Phylum × Acc) :=
  ['''%line['some_use_u'])
o.write(', '.join('(.%s, .%s)'%(k,t) for k,t in [c for f,_,c in fns if f=='some_use_u'][0])+']\n\nend Aps.Util\n')
o.close()
# patterns of the grammar
g=re.sub(r'--.*','',open(R+'aps-tree.aps').read())
pats={}
for m in re.finditer(r'\bpattern\s+(\w+)\s*\(',g):
    j=m.end(); d=1
    while d: d+=(g[j]=='(')-(g[j]==')'); j+=1
    mm=re.match(r'\s*:\s*\w+\s*:=(.*?);(?!\w)',g[j:].replace('(type)','type'),re.S)
    if not mm: continue
    body=mm.group(1); alts=[]
    for a in re.finditer(r'(\w+)\(([^()]*)\)(?:\s*:\?\s*T)?',body):
        alts.append((a.group(1),[x.strip() for x in a.group(2).split(',')]))
    pats[m.group(1)]=alts
def positions(p,field):
    r=[]
    for c,args in pats[p]:
        if c in pats and c not in ('use',): # a pattern used in a pattern: all its choices
            if '?'+field in args: r+=positions(c,field)
            continue
        if '?'+field in args: r.append((c,args.index('?'+field)))
    return r
want={'replacement_from':('replacement','from'),'replacement_to':('replacement','as')}
for f in names:
    if f in want: continue
    for p in sorted(pats,key=lambda p:-len(p)):
        if f.startswith(p+'_'): want[f]=(p,f[len(p)+1:]); break
o=open(OUT+'Spec/UtilPatterns.lean','w')
o.write('''import Verif.Model.UtilTables
/-!
# The patterns of the grammar that parse/aps-util.c implements

Extracted by `tools/gen_util.py` from parse/aps-tree.aps: for a function `p_f`, the alternatives of `pattern p(…)`, each
with the position of `?f` in it.  The last six functions have no pattern in the grammar ("Others that should have been
given definitions in aps-tree.aps", aps-util.h): there the constructors are those meant by the name of the function, and
the position is that of the field of this name.
-/
namespace Aps.Util
open Aps.Ast

/-- The constructors that the pattern of a function matches, with the position of the field. -/
def patternField : Fn → List (Con × Nat)
''')
for f in names:
    if f in want and f!='some_use_u':
        o.write('  -- pattern %s, field %s\n  | .%s => ['%(want[f]+(f,))+', '.join('(.%s, %d)'%(q(c),n) for c,n in positions(*want[f]))+']\n')
cons={}
for m in re.finditer(r'\bconstructor\s+(\w+)\s*\(',g):
    j=m.end(); d=1
    while d: d+=(g[j]=='(')-(g[j]==')'); j+=1
    fs=[]
    for part in g[m.end():j-1].split(';'):
        if part.strip(): fs+=[x.strip().strip('()') for x in part.split(':')[0].split(',')]
    cons[m.group(1)]=fs
fam={'some_value_decl':['value_decl','attribute_decl','function_decl','procedure_decl','constructor_decl','normal_formal','seq_formal'],
     'some_function_decl':['function_decl','procedure_decl'],'some_case_stmt':['case_stmt','for_stmt']}
for f in names:
    if f not in want:
        p=[p for p in fam if f.startswith(p+'_')][0]; fl=f[len(p)+1:]
        o.write('  | .%s => ['%f+', '.join('(.%s, %d)'%(c,cons[c].index(fl)) for c in fam[p])+']\n')
o.write('  | .some_use_u => []\n')
o.write('''
/-- `pattern some_use(u)` of the grammar. -/
def usePattern : List (Con × Nat) := ['''+', '.join('(.%s, %d)'%(q(c),n) for c,n in positions('some_use','u'))+']\n')
o.write('\nend Aps.Util\n'); o.close()
print([f for f in names if f not in want])
