#!/usr/bin/env python3
"""Extracts the tables of the generated C files parse/aps-tree.c, aps-traverse.c, aps-tree-dump.c
and of the grammar parse/aps-tree.aps into Lean: lean/Verif/Model/AstTables.lean and
lean/Verif/Spec/AstGrammar.lean.  Every line of the C files is consumed by exactly one pattern;
the script fails on a line it does not understand."""
import re,sys
R='/repo/parse/'
OUT='/verif/lean/Verif/'
KW={'def','if','match','class','module','from','empty','use','end','repeat','block','simple'}
KW={'def','match','repeat','from','end'}
def q(n): return '«%s»'%n if n in KW else n

# ---------------------------------------------------------------- grammar
g=open(R+'aps-tree.aps').read()
g=re.sub(r'--.*','',g)
phyla=re.findall(r'\bphylum (\w+);',g)
seqs=re.findall(r'\bphylum (\w+):=SEQUENCE\[(\w+)\];',g)
LEAF=['Symbol','String','Boolean']
cons=[] # (con, phylum, [(field,kind)])
for m in re.finditer(r'\bconstructor\s+(\w+)\s*\(',g):
    i=m.end(); d=1
    while d:
        c=g[i]; d+= (c=='(')-(c==')'); i+=1
    body=g[m.end():i-1]
    ph=re.match(r'\s*:\s*(\w+)\s*;',g[i:]).group(1)
    fs=[]
    for part in body.split(';'):
        part=part.strip()
        if not part: continue
        ns,k=part.split(':')
        for n in ns.split(','):
            fs.append((n.strip().strip('()'),k.strip()))
    cons.append((m.group(1),ph,fs))
for s,e in seqs:
    cons.append(('nil_'+s,s,[])); cons.append(('list_'+s,s,[('elem',e)]))
    cons.append(('append_'+s,s,[('l1',s),('l2',s)]))
PH=phyla+[s for s,_ in seqs]

# ---------------------------------------------------------------- aps-tree.c
L=open(R+'aps-tree.c').read().split('\n')
i=0
def at(p):
    global i
    m=re.fullmatch(p,L[i])
    if m: i+=1
    return m
def need(p):
    m=at(p)
    if not m: sys.exit('aps-tree.c:%d: %r does not match %s'%(i+1,L[i],p))
    return m
tnp=[]; keys={}; copies={}; builds={}; accs={}; keyln={}; copyln={}; buildln={}; accln={}; asserts={}
names={}
while i<len(L):
    if at(r'\s*') or at(r'/\*.*\*/') or at(r'#include.*'): continue
    if at(r'enum KEYTYPE_ABSTRACT_APS_Phylum ABSTRACT_APS_tnode_phylum\(void \*tnode\) \{'):
        need(r'  if \(tnode == 0\) return KEY_ABSTRACT_APS_None;')
        need(r'  switch \(\(\(TNODE\)tnode\)->operator\) \{')
        need(r'    default:'); need(r'      return KEY_ABSTRACT_APS_None;')
        grp=[]
        while True:
            m=at(r'    case (\d+):')
            if m: grp.append(int(m.group(1))); continue
            m=at(r'      return KEY(\w+);')
            if m:
                tnp+=[(o,m.group(1)) for o in grp]; grp=[]; continue
            need(r'\s*\}'); break
        at(r'\s*return .*;'); need(r'\}'); continue
    m=at(r'char \*ABSTRACT_APS_phyla.*')
    if m:
        while not at(r'.*\};?'): i+=1
        continue
    m=at(r'enum KEYTYPE_(\w+) (\w+)_KEY\((\w+) _node\)\{')
    if m:
        p=m.group(1); assert m.group(2)==p and m.group(3)==p; start=i
        need(r'  if \(_node == NULL\) \{'); need(r'    fatal_error\("NULL is not of type \w+"\);'); need(r'  \}')
        need(r'  switch\(\(\(TNODE\)_node\)->operator\) \{'); need(r'    default: fatal_error\("0x%x \(code %d\) is not of type \w+",'); need(r'\s*_node,\(\(TNODE\)_node\)->operator\);')
        ks=[]
        while True:
            m=at(r'    case (\d+): return KEY(\w+);')
            if m: ks.append((int(m.group(1)),m.group(2))); continue
            need(r' \}'); need(r'\}'); break
        keys[p]=ks; keyln[p]=(start,i); continue
    m=at(r'char \*(\w+)_constructors\[\] = \{')
    if m:
        names[m.group(1)]=[]
        while True:
            n=at(r'  "(\w+)",')
            if n: names[m.group(1)].append(n.group(1)); continue
            need(r'  0\};'); break
        continue
    m=at(r'(\w+) copy_(\w+)\((\w+) _node\) \{')
    if m:
        p=m.group(2); start=i; cs=[]
        need(r'  switch \(%s_KEY\(_node\)\) \{'%p)
        while True:
            m=at(r'    case KEY(\w+):')
            if m:
                k=m.group(1)
                m=at(r'      return (\w+)\(\);')
                if m: cs.append((k,m.group(1),[])); continue
                b=need(r'      return (\w+)\(').group(1); args=[]
                while True:
                    m=need(r'        copy_(\w+)\((\w+)\(_node\)\)(,|\);)')
                    args.append((m.group(1),m.group(2)))
                    if m.group(3)==');': break
                cs.append((k,b,args)); continue
            need(r'  \}'); need(r'  abort\(\);'); need(r'\}'); break
        copies[p]=cs; copyln[p]=(start,i); continue
    m=at(r'void assert_(\w+)\((\w+) _node\) \{')
    if m:
        k=need(r'  \(void\)(\w+)_KEY\(_node\);').group(1); asserts[m.group(1)]=k; need(r'\}'); continue
    m=at(r'(\w+) (\w+)\((\w+) _node\)\{')
    if m and '_KEY(' in L[i]:
        ret,a,p=m.groups(); start=i
        m=need(r'  if \((\w+)_KEY\(_node\) != KEY(\w+)\) \{')
        need(r'    fatal_error\("\w+: called with %s",'); need(r'.*_constructors\[.*\]\);'); need(r'  \}')
        m2=need(r'  return \((\w+)\)\(\(TNODE\)_node\)->children\[(\d+)\];'); need(r'\}')
        assert m2.group(1)==ret
        accs[a]=(m.group(1),m.group(2),int(m2.group(2)),ret); accln[a]=(start,i); continue
    m=at(r'(\w+) (\w+)\(([^)]*)\)\{')
    if m:
        ret,c,ps=m.groups(); start=i
        ps=[x.strip().split(' ') for x in ps.split(',')] if ps.strip() else []
        m=need(r'  TNODE _node = create_tnode\((\d+),(\d+)\);'); op,n=int(m.group(1)),int(m.group(2))
        st=[]; asd={}
        while True:
            m=at(r'  assert_(\w+)\((\w+)\);')
            if m:
                j=[k for k,x in enumerate(ps) if x[1]==m.group(2)][0]
                asd[j]=m.group(1); continue
            m=at(r'  _node->children\[(\d+)\] = \(void \*\)\(?(?:size_t\))?\(?(\w+)\)?;')
            if m:
                j=[k for k,x in enumerate(ps) if x[1]==m.group(2)][0]
                st.append((int(m.group(1)),j)); continue
            need(r'  return \(%s\)_node;'%ret); need(r'\}'); break
        builds[c]=(op,n,ret,[asd.get(j) for j in range(len(ps))],st,[x[0] for x in ps]); buildln[c]=(start,i); continue
    sys.exit('aps-tree.c:%d: cannot read %r'%(i+1,L[i]))
for p in asserts: assert asserts[p]==p,p
# ---------------------------------------------------------------- aps-traverse.c, aps-tree-dump.c
def switches(fn,head,case_open,call,close):
    pass
L=open(R+'aps-traverse.c').read().split('\n'); i=0
trav={}
while i<len(L):
    if at(r'\s*') or at(r'/\*.*') or at(r'   and modified by hand. \*/') or at(r'#include.*') or at(r'#define traverse_(Symbol|String|Boolean)\(f,a,x\) /\*nothing\*/'): continue
    m=need(r'void traverse_(\w+)\(TRAVERSEFUNC func, void \*arg, (\w+) _node\)\{')
    p=m.group(1); assert m.group(2)==p
    need(r'  if \(\(arg=func\(arg,_node\)\) == NULL\) return;'); need(r'  traverse_%s_skip\(func,arg,_node\);'%p); need(r'\}')
    need(r'void traverse_%s_skip\(TRAVERSEFUNC func, void \*arg, %s _node\)\{'%(p,p))
    need(r'  switch \(%s_KEY\(_node\)\) \{'%p); need(r'\s*default: fatal_error\("traverse_%s crashes"\);'%p)
    cs=[]
    while True:
        m=at(r'\s*case KEY(\w+):')
        if m:
            calls=[]
            while True:
                n=at(r'\s*traverse_(\w+)\(func,arg,(\w+)\(_node\)\);')
                if n: calls.append((n.group(1),n.group(2))); continue
                need(r'\s*break;'); break
            cs.append((m.group(1),calls)); continue
        need(r'  \}'); need(r'\}'); break
    trav[p]=cs
L=open(R+'aps-tree-dump.c').read().split('\n'); i=0
dump={}
while i<len(L):
    if at(r'\s*') or at(r'/\*.*') or at(r'#include.*'): continue
    m=need(r'void dump_lisp_(\w+)\((\w+) _node\)\{'); p=m.group(1); assert m.group(2)==p
    need(r'  int _l = tnode_line_number\(_node\);'); need(r'  switch \(%s_KEY\(_node\)\) \{'%p); need(r'\s*default: fatal_error\("dump_lisp_%s crashes"\);'%p)
    cs=[]
    while True:
        m=at(r'\s*case KEY(\w+):')
        if m:
            nm=need(r'      printf\("%c\((\w+) #%d!",10,_l\);').group(1); calls=[]
            while True:
                n=at(r'dump_lisp_(\w+)\((\w+)\(_node\)\);')
                if n: calls.append((n.group(1),n.group(2))); continue
                need(r'      printf\("\)"\);'); need(r'\s*break;'); break
            cs.append((m.group(1),nm,calls)); continue
        need(r'\s*\}'); need(r'\}'); break
    dump[p]=cs
# ---------------------------------------------------------------- write
con_names=[c for c,_,_ in cons]
extra=[c for c in builds if c not in con_names]
assert not extra,extra
acc_names=[c+'_'+n for c,_,f in cons for n,_ in f]
ren=lambda a: 'type_value_t' if a=='type_value_T' else a
accs={ren(a):v for a,v in accs.items()}
assert sorted(acc_names)==sorted(accs)
def kind(k): return '.leaf .'+k.lower() if k in LEAF else '.ph .'+k
def calls(cs): return '['+', '.join('(%s, .%s)'%(kind(k),q(ren(a))) for k,a in cs)+']'
def wrap(items,ind='  '):
    out=[];line=ind
    for x in items:
        if len(line)+len(x)>96: out.append(line.rstrip()); line=ind
        line+=x+' '
    out.append(line.rstrip()); return '\n'.join(out)
o=[]
o.append('''import Verif.Spec.AstGrammar

/-!
# The tables of the abstract syntax tree code

Extracted by `tools/gen_ast.py` from parse/aps-tree.c, parse/aps-traverse.c and
parse/aps-tree-dump.c; the script consumes every line of those files.  Each function below is one
family of `switch` statements, with the cases in the order of the source.
-/
namespace Aps.Ast

''')
def fn(name,doc,ty,body):
    o.append('/-- %s -/\ndef %s : %s\n%s\n'%(doc,name,ty,'\n'.join(body)))
fn('keyTable','`X_KEY` (aps-tree.c, from line %d): the cases `case N: return KEYc;` of phylum `X`.'%keyln[PH[0]][0],
   'Phylum → List (Nat × Con)',
   ['  | .%s => [%s]'%(p,', '.join('(%d, .%s)'%(n,q(c)) for n,c in keys[p])) for p in PH])
fn('phylumTable','`ABSTRACT_APS_tnode_phylum` (aps-tree.c:11-170): the cases of the switch.','List (Nat × Phylum) :=',
   ['  [%s]'%',\n   '.join('(%d, .%s)'%x for x in tnp)])
fn('accTable','The accessor functions (aps-tree.c, from line %d): the phylum whose `_KEY` is called, the key it\nis compared with, and the index of the child returned.'%min(v[0] for v in accln.values()),
   'Acc → Phylum × Con × Nat',
   ['  | .%s => (.%s, .%s, %d)'%(q(a),v[0],q(v[1]),v[2]) for a,v in accs.items()])
fn('opNum','The constructor functions (aps-tree.c, from line %d): first argument of `create_tnode`.'%min(v[0] for v in buildln.values()),
   'Con → Nat',['  | .%s => %d'%(q(c),builds[c][0]) for c in con_names if c in builds])
fn('arityNum','The constructor functions: second argument of `create_tnode`.',
   'Con → Nat',['  | .%s => %d'%(q(c),builds[c][1]) for c in con_names if c in builds])
fn('assertTable','The constructor functions: the phylum asserted of each parameter, in order (a leaf kind: its\n`assert_` function is empty, aps-tree.handcode.i:17-24).',
   'Con → List Kind',['  | .%s => [%s]'%(q(c),', '.join(kind(k) for k in builds[c][3])) for c in con_names if c in builds])
fn('storeTable','The constructor functions: the assignments `children[k] = parameter j`, in order, as `(k, j)`.',
   'Con → List (Nat × Nat)',['  | .%s => [%s]'%(q(c),', '.join('(%d, %d)'%x for x in builds[c][4])) for c in con_names if c in builds])
fn('copyTable','`copy_X` (aps-tree.c, from line %d): case key, constructor called, and its arguments\n`copy_K(accessor(_node))`.'%min(v[0] for v in copyln.values()),
   'Phylum → List (Con × Con × List (Kind × Acc))',
   ['  | .%s => [%s]'%(p,',\n      '.join('(.%s, .%s, %s)'%(q(a),q(b),calls(c)) for a,b,c in copies[p])) for p in PH])
fn('travTable','`traverse_X_skip` (aps-traverse.c:12-705): case key and the calls `traverse_K(func,arg,accessor(_node))`.',
   'Phylum → List (Con × List (Kind × Acc))',
   ['  | .%s => [%s]'%(p,',\n      '.join('(.%s, %s)'%(q(a),calls(c)) for a,c in trav[p])) for p in PH])
fn('dumpTable','`dump_lisp_X` (aps-tree-dump.c:7-880): case key, name printed, and the calls\n`dump_lisp_K(accessor(_node))`.',
   'Phylum → List (Con × List Char × List (Kind × Acc))',
   ['  | .%s => [%s]'%(p,',\n      '.join('(.%s, "%s".toList, %s)'%(q(a),b,calls(c)) for a,b,c in dump[p])) for p in PH])
o.append('end Aps.Ast')
open(OUT+'Model/AstTables.lean','w').write('\n'.join(o)+'\n')
s=[]
s.append('''/-!
# The abstract syntax of APS

Extracted by `tools/gen_ast.py` from the grammar parse/aps-tree.aps, which is the description of
the tree the C files were generated from: the phyla, the constructors, and the phylum of each field
of each constructor.  A phylum declared as a `SEQUENCE[T]` has the three constructors `nil_`,
`list_` (one element) and `append_` (two sequences).
-/
namespace Aps.Ast

/-- The phyla (aps-tree.aps:6-41). -/
inductive Phylum where
'''+wrap(['| '+p for p in PH])+'''
  deriving DecidableEq, Repr

/-- All phyla. -/
def Phylum.all : List Phylum :=
  ['''+wrap(['.'+p+',' for p in PH],'   ').strip().rstrip(',')+''']

/-- The kinds of fields that are not tree nodes. -/
inductive Leaf where
  | symbol | string | boolean
  deriving DecidableEq, Repr

/-- What a field of a constructor holds. -/
inductive Kind where
  | ph (p : Phylum)
  | leaf (l : Leaf)
  deriving DecidableEq, Repr

/-- The constructors (aps-tree.aps:53-382). -/
inductive Con where
'''+wrap(['| '+q(c) for c in con_names])+'''
  deriving DecidableEq, Repr

/-- The fields, each named by its constructor and its name in the grammar.  The accessor function
of aps-tree.c for a field has the same name (that of `type_value_t` is `type_value_T`). -/
inductive Acc where
'''+wrap(['| '+q(a) for a in acc_names])+'''
  deriving DecidableEq, Repr

namespace Con

/-- All constructors. -/
def all : List Con :=
  ['''+wrap(['.'+q(c)+',' for c in con_names],'   ').strip().rstrip(',')+''']

/-- The phylum a constructor belongs to. -/
def phylum : Con → Phylum
'''+'\n'.join('  | .%s => .%s'%(q(c),p) for c,p,_ in cons)+'''

/-- The fields of a constructor, in order. -/
def fields : Con → List (Kind × Acc)
'''+'\n'.join('  | .%s => [%s]'%(q(c),', '.join('(%s, .%s)'%(kind(k),q(c+'_'+n)) for n,k in f)) for c,p,f in cons)+'''

/-- The name of a constructor. -/
def name : Con → List Char
'''+'\n'.join('  | .%s => "%s".toList'%(q(c),c) for c,p,_ in cons)+'''

end Con
end Aps.Ast''')
open(OUT+'Spec/AstGrammar.lean','w').write('\n'.join(s)+'\n')
# field/accessor correspondence by name
print('constructors',len(cons),'accessors',len(accs),'missing builders',[c for c in con_names if c not in builds])
for c,p,f in cons:
    pass
fl={c+'_'+n for c,p,f in cons for n,k in f}
print('extra accessors',[a for a in accs if a not in fl])
for p in PH:
    if names[p]!=[c for _,c in keys[p]]: print('names order differ',p)
print([ (c,builds[c][3],builds[c][5]) for c in builds if [x for x in builds[c][3]]!=builds[c][5]])
