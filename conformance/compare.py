"""Run the model on the inputs of snapshot tests and compare token by token with the
recorded expansions, after undoing what other macros and the printer did to them."""
import sys,glob,subprocess,re,os
sys.setrecursionlimit(20000)
import rust
HERE=os.path.dirname(os.path.abspath(__file__))
from rust import Group,Tok,flat
def T(s): return rust.trees(rust.lex(s))
def norm(ts):
    out=[]
    for t in ts:
        if isinstance(t,Group):
            g=Group(t.d,norm(t.ts),t,t); 
            if g.ts and g.ts[-1].s==',' and g.d!='{' : g.ts=g.ts[:-1]
            if g.ts and g.ts[-1].s==',' : g.ts=g.ts[:-1]
            out.append(g)
        else:
            if t.k=='str': t=Tok('str','"'+re.sub(r'\s','',re.sub(r'\{\d+(:[^}]*)?\}',r'{\1}',rust.unstr(t.s).replace("\\'","'"))).replace('"',"'")+'"',t.l,t.c)
            out.append(t)
    ts=out; i=0; out=[]
    def seq(i,pat):
        pat=pat.split()
        for j,p in enumerate(pat):
            if i+j>=len(ts): return False
            u=ts[i+j]
            if p=='G': 
                if not isinstance(u,Group): return False
            elif isinstance(u,Group) or u.s!=p: return False
        return True
    while i<len(ts):
        t=ts[i]
        if isinstance(t,Group) and t.d=='{':
            f=flat(t.ts)
            if f[:6]==['(']*0+[':',':','std',':',':','io'] and '_print' in f[:12] and f[-1]==';':
                inner=[x for x in t.ts if isinstance(x,Group)][0]
                fa=[x for x in inner.ts if isinstance(x,Group)][0]
                out+=T('println !')+[fa]; i+=1; continue
            if f[:6]==[':',':','std',':',':','io'] and '_eprint' in f[:12] and f[-1]==';':
                inner=[x for x in t.ts if isinstance(x,Group)][0]
                fa=[x for x in inner.ts if isinstance(x,Group)][0]
                out+=T('eprintln !')+[fa]; i+=1; continue
        if seq(i,': : std : :') and seq(i+6,'! G') and ts[i+5].s in('eprintln','println','format'): i+=5; continue
        if seq(i,': : alloc : : __export : : must_use G'):
            g=ts[i+9]
            while not(g.ts[0].s=='format_args' ):
                g=[x for x in g.ts if isinstance(x,Group)][0]
            out+=T('format !')+[g.ts[2]]; i+=10; continue
        if seq(i,'# [ prelude_import ]'): pass
        if seq(i,'# G') and flat(ts[i+1].ts) in(['prelude_import'],['macro_use'],['derive','(','Debug',')']): i+=2; continue
        if seq(i,'use std : : prelude : : rust_2024 : : * ;'): i+=12; continue
        if seq(i,'extern crate std ;'): i+=4; continue
        if seq(i,'extern crate test ;'): break
        if seq(i,'# G') and flat(ts[i+1].ts)==['automatically_derived']:
            i+=2
            while not(isinstance(ts[i],Group) and ts[i].d=='{'): i+=1
            i+=1; continue
        if isinstance(t,Group) and t.d=='{' and len(out)>1 and out[-1].s=='>' and out[-2].s=='=' and not any(x.s==';' or x.s in('let',) for x in t.ts) and not any(isinstance(x,Group) and x.d=='{' for x in t.ts[:-1]):
            if out[-1].k=='p':
                out+=t.ts; i+=1
                if not(i<len(ts) and ts[i].s==',') and i<len(ts): out.append(Tok('p',',',0,0))
                continue
        if seq(i,': : hooq : :') and seq(i+6,'! G'): out+=T('"_"'); i+=8; continue
        if t.k=='str' and re.match(r'"\d+>.*\|"$',t.s): out+=T('"_"'); i+=1; continue
        if t.k=='str' and re.match(r'".*/[\w]*\.rs"$',t.s): out+=T('"'+t.s.split('/')[-1]); i+=1; continue
        if seq(i,'line ! G'): out+=T('LINE'); i+=3; continue
        if t.k=='num' and re.match(r'\d+u32$',t.s): out+=T('LINE'); i+=1; continue
        if seq(i,'# ! G'): i+=3; continue
        if seq(i,'empty ! G'): i+=3; continue
        if seq(i,'let expr ='):
            out+=T('let expr = _'); i+=3
            while not ts[i].s==';': i+=1
            continue
        if seq(i,'stringify ! G'):
            out.append(Tok('str','"'+re.sub(r'\s','',rust.text(ts[i+2].ts)).replace('"',"'")+'"',0,0)); i+=3; continue
        if (seq(i,'println ! G') or seq(i,'eprintln ! G') or seq(i,'format ! G')) and ts[i+2].ts and ts[i+2].ts and ts[i+2].ts[0].k=='str':
            g=ts[i+2]; names=re.findall(r'\{([a-z_]\w*)',g.ts[0].s)
            g.ts[0]=Tok('str',re.sub(r'\{([a-z_]\w*)','{',g.ts[0].s),0,0)
            for nm in dict.fromkeys(names): g.ts+=T(', '+nm)
            out+=ts[i:i+3]; i+=3; continue
        if seq(i,'id ! G'):
            out+=ts[i+2].ts; i+=3
            continue
        if seq(i,'vec ! G'):
            g=ts[i+2]; 
            semi=[k for k,x in enumerate(g.ts) if x.s==';']
            if semi: g.ts[semi[0]]=Tok('p',',',0,0); out+=T(':: alloc :: vec :: from_elem')+[Group('(',g.ts,g,g)]
            else: out+=T('<[_]> :: into_vec')+[Group('(',T(':: alloc :: boxed :: box_new')+[Group('(',[g],g,g)],g,g)]
            i+=3; continue
        if seq(i,': : <'):
            d=0; i+=2
            while True:
                if ts[i].s=='<': d+=1
                if ts[i].s=='>': d-=1
                i+=1
                if d==0: break
            continue
        if seq(i,'& mut'): out.append(t); i+=2; continue
        if seq(i,'move'): i+=1; continue
        if t.s==',' and out and isinstance(out[-1],Group) and out[-1].d=='{': i+=1; continue
        if isinstance(t,Group) and t.d=='{' and out and out[-1].s=='|' and not isinstance(out[-1],Group) and not any(x.s==';' or x.s in('let',) for x in t.ts) :
            out+=t.ts; i+=1; continue
        out.append(t); i+=1
    return out
def metas(ts):
    out=[];cur=[]
    for t in ts+[None]:
        if t is None or (not isinstance(t,Group) and t.s==','):
            if cur: out.append(rust.meta(cur))
            cur=[]
        else: cur.append(t)
    return '[%s]'%', '.join(out)
def istest(ts): return '# [ tokio : : test ]' in ' '.join(flat(ts))[:80] or '# [ test ]' in ' '.join(flat(ts))[:80] or 'cfg ( test )' in ' '.join(flat(ts))[:80]
def main(files,namefn,env='cenv',keep=None,head=''):
    src=['import Verif.Model.Root','import Verif.Model.TomlDoc']+open(HERE+'/printer.lean.txt').read().split('\n')[1:]+['namespace Hooq',head]
    plan=[]
    n=0
    for f in files:
        lst=[]
        def walk(items):
          nonlocal n
          for h,it,ts in items:
            if istest(ts): continue
            if h is None:
                if isinstance(ts[-1],Group) and ts[-1].d=='{' and any(x.s in('mod','impl') for x in ts[:-1]) and 'hooq' in flat(ts):
                    try:
                        sub=rust.parsetoks(ts[-1].ts)
                        lst.append(('txt',flat(norm(ts[:-1]))+['{'])); walk(sub); lst.append(('txt',['}'])); continue
                    except rust.ParseError: pass
                lst.append(('raw',ts)); continue
            n+=1
            src.append('def i%d : Item := %s'%(n,it)); src.append('def a%d : List Meta := %s'%(n,metas(h)))
            e=env if isinstance(env,str) else env(f)
            src.append('#eval IO.println ("@@%d " ++ Pr.root (hooqImpls %s a%d i%d))'%(n,e,n,n))
            lst.append(('h',n))
        walk(rust.parsefile(open(f).read(),namefn(f)))
        plan.append((f,lst))
    src.append('end Hooq')
    open('/tmp/conformance.lean','w').write('\n'.join(src))
    r=subprocess.run('cd %s/../lean && lake env lean /tmp/conformance.lean'%HERE,shell=True,capture_output=True,text=True).stdout
    res={}
    for m in re.finditer(r'@@(\d+) (.*?)(?=\n(?:@@|/tmp/conformance)|\Z)',r,re.S): res[int(m.group(1))]=m.group(2)
    for l in r.split('\n'):
        if re.match(r'/tmp/conformance.lean:.*error',l): print(l[:300])
    good=0
    for f,lst in plan:
        exp=open(f[:-3]+'.expanded.rs').read()
        got=[]
        try:
            for k,x in lst:
                if k=='txt': got+=x
                elif k=='raw': got+=flat(norm(x))
                elif x not in res: got.append('MISSING')
                elif res[x].startswith('ERROR'): got.append(res[x])
                else: got+=flat(norm(T(res[x])))
            ee=norm(T(exp))
            if len(ee)==3 and ee[0].s=='mod': ee=ee[2].ts
            e=flat(ee)
        except Exception as ex:
            print('EXC',f,repr(ex)); raise
        if keep: got=keep(got); e=keep(e)
        if got!=e:
            def trip(l):
                o=[]
                for k in range(len(l)-3):
                    if l[k]=='let' and l[k+1] in('path','line','col','level') and l[k+2]=='=': 
                        m=k+3
                        while l[m]!=';': m+=1
                        o.append(tuple(l[k:m]))
                    if l[k]=='.' and l[k+1] in('with_context','wrap_err_with','inspect_err'): o.append(l[k+1])
                return o
            if len(trip(e))>4 and trip(got)==trip(e): print('same-hooks',f,len(trip(e))); good+=1; continue
        if got==e: good+=1; print('same',f, len(e),'tokens')
        else:
            k=0
            while k<min(len(got),len(e)) and got[k]==e[k]: k+=1
            print('DIFF',f); print('  model:',' '.join(got[max(0,k-12):k+25])); print('  real :',' '.join(e[max(0,k-12):k+25]))
    print(good,'of',len(plan))
