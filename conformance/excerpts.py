"""Snapshot tests of the excerpt macros."""
import os,sys,re,subprocess,glob
sys.setrecursionlimit(20000)
import rust
from rust import *
def ch(s): return q(s)+'.toList'
def ptoks(ts,inmac=False):
    out=[]
    for i,t in enumerate(ts):
        if isinstance(t,Group):
            mac=inmac or (i>0 and ts[i-1].s=='!' )
            out.append('(.group %s %s %d %d %d %d)'%(DEL[t.d],ptoks(t.ts,mac),t.l,t.c,t.el,t.ec+1))
        elif t.k=='str' and not inmac: out.append('(.str %s %s %d %d %d)'%(ch(unstr(t.s)),ch(t.s),t.l,t.c,t.c+len(t.s)))
        elif t.k=='life':
            out.append("(.leaf %s %d %d %d)"%(ch("'"),t.l,t.c,t.c+1)); out.append("(.leaf %s %d %d %d)"%(ch(t.s[1:]),t.l,t.c+1,t.c+len(t.s)))
        else: out.append('(.leaf %s %d %d %d)'%(ch(t.s),t.l,t.c,t.c+len(t.s)))
    return '['+', '.join(out)+']'
class G2(Group):
    def __init__(self,d,ts,o,c): Group.__init__(self,d,ts,o,c); self.el=c.l; self.ec=c.c
rust.Group=G2
def endline(t): return t.el if isinstance(t,Group) else t.l
def otoks(ts):
    out=[]
    for t in ts:
        if isinstance(t,Group): out.append('(.group .paren [] .callSite)')
        elif t.k=='id': out.append('(.ident %s .callSite)'%q(t.s))
        elif t.k=='p': out.append("(.punct '%s' .callSite)"%t.s)
        elif t.k=='str': out.append('(.lit (.str %s) .callSite)'%q(unstr(t.s)))
        elif t.k=='num': out.append('(.lit (.int %s) .callSite)'%t.s)
        else: out.append('(.lit (.other "") .callSite)')
    return '['+', '.join(out)+']'
def optlen(ts):
    """number of tokens of options (python guess, used for the expression parameter)"""
    i=0
    while i<len(ts) and ts[i].s=='@':
        i+=2
        if i<len(ts) and ts[i].s=='=': i+=2
        if i<len(ts) and ts[i].s==',': i+=1
    if i<len(ts) and ts[i].s==';': i+=1
    return i
src=open('/repo/hooq-macros/tests/special/source_excerpt_macros/mod.rs').read()
ts=trees(lex(src))
cases=[]
def scan(ts):
    for i,t in enumerate(ts):
        if isinstance(t,Group): scan(t.ts)
        elif t.k=='id' and t.s.endswith('stringify') and i+2<len(ts) and ts[i+1].s=='!' : cases.append([t.s,ts[i+2],None])
        elif t.s=='assert_snapshot': cases[-1][2]=unstr(ts[i+2].ts[0].s)
scan(ts)
L=['import Verif.Model.ExcerptArgs','namespace Hooq','def spell (v : List Char) : List Char := ("\\"" ++ ((String.ofList v).replace "\\"" "\\\\\\"") ++ "\\"").toList',
 'def reader (e : List TT → Option PExpr) : OptReader PExpr := { lit := fun l => match l with | .str s => .str s | .int n => .int (some n) | _ => .other, number := fun l => match l with | .int _ => true | _ => false, expr := e }']
for n,(m,g,s) in enumerate(cases):
    k=optlen(g.ts); e=g.ts[k:]
    pe='⟨%s, %d, %d⟩'%(ptoks(e),e[0].l,endline(e[-1]))
    L.append('def e%d : OptReader PExpr := reader fun r => if r.length = %d then some %s else none'%(n,len(e),pe))
    call={'pretty_stringify':'prettyMacro','one_line_stringify':'oneLineMacro Char.isWhitespace spell','excerpted_pretty_stringify':'excerptMacro spell'}[m]
    L.append('#eval IO.println ("@@%d " ++ (match %s e%d %s with | some l => reprStr (String.ofList l) | none => "none"))'%(n,call,n,otoks(g.ts)))
open('/tmp/conformance.lean','w').write('\n'.join(L)+'\nend Hooq\n')
r=subprocess.run('cd %s/../lean && lake env lean /tmp/conformance.lean'%os.path.dirname(os.path.abspath(__file__)),shell=True,capture_output=True,text=True).stdout
res={int(m.group(1)):m.group(2) for m in re.finditer(r'@@(\d+) (.*)',r)}
import ast
ok=0
for n,(m,g,s) in enumerate(cases):
    f=glob.glob('/repo/hooq-macros/tests/special/source_excerpt_macros/snapshots/*__%s.snap'%s)[0]
    exp=open(f).read().split('---\n',2)[2].rstrip('\n')
    got=ast.literal_eval(res[n]) if n in res else None
    if got is not None and (got==exp or got.strip('\n')==exp.strip('\n')): ok+=1
    else: print('DIFF',s); print(repr(got)); print(repr(exp))
print(ok,len(cases))
