"""A parser for the part of Rust that the tests use; emits terms of the Lean model."""
import re,sys
class Tok:
    __slots__=('k','s','l','c','joint')
    def __init__(self,k,s,l,c,joint=False): self.k=k;self.s=s;self.l=l;self.c=c;self.joint=joint
    def __repr__(self): return self.s
TOKRE=re.compile(r'''
 (?P<ws>\s+|//[^\n]*|/\*.*?\*/)
|(?P<str>b?r(\#*)".*?"\3|b?"(?:\\.|[^"\\])*"|c"(?:\\.|[^"\\])*")
|(?P<char>b?'(?:\\.[^']*|[^\\'])')
|(?P<life>'[A-Za-z_]\w*)
|(?P<num>\d[\d_]*(?:\.\d[\d_]*)?(?:[a-zA-Z]\w*)?)
|(?P<id>(?:r\#)?[A-Za-z_]\w*)
|(?P<p>[^\s\w])
''',re.X|re.S)
def lex(src):
    out=[];i=0;line=1;ls=0
    while i<len(src):
        m=TOKRE.match(src,i)
        if not m: raise Exception('lex %r'%src[i:i+30])
        k=m.lastgroup
        if k is None: raise Exception('lex?')
        s=m.group()
        # float vs range: "1..": our num regexp needs digit after dot
        if m.group('ws') is None:
            kk='str' if m.group('str') else 'char' if m.group('char') else 'life' if m.group('life') else 'num' if m.group('num') else 'id' if m.group('id') else 'p'
            t=Tok(kk,s,line,i-ls+1)
            if kk=='p' and i+1<len(src) and re.match(r'[^\s\w"\']',src[i+1]): t.joint=True
            out.append(t)
        n=s.count('\n')
        if n: line+=n; ls=i+s.rindex('\n')+1
        i=m.end()
    return out
CL={'(':')','[':']','{':'}'}
def trees(toks):
    """group delimiters"""
    st=[[]];op=[]
    for t in toks:
        if t.k=='p' and t.s in CL:
            op.append(t); st.append([])
        elif t.k=='p' and t.s in ')]}':
            o=op.pop(); assert CL[o.s]==t.s
            g=Group(o.s,st.pop(),o,t); st[-1].append(g)
        else: st[-1].append(t)
    assert len(st)==1,op
    return st[0]
class Group:
    k='g'
    def __init__(self,d,ts,o,c): self.d=d;self.ts=ts;self.l=o.l;self.c=o.c;self.s=d
    def __repr__(self): return self.d+' '.join(map(repr,self.ts))+CL[self.d]
def flat(ts):
    out=[]
    for t in ts:
        if isinstance(t,Group): out.append(t.d);out+=flat(t.ts);out.append(CL[t.d])
        else: out.append(t.s)
    return out
def text(ts): return ' '.join(flat(ts))
class ParseError(Exception): pass
def q(s):
    return '"'+s.replace('\\','\\\\').replace('"','\\"').replace('\n','\\n')+'"'
def unstr(s):
    m=re.match(r'b?r(#*)"(.*)"\1$',s,re.S)
    if m: return m.group(2)
    s=s[s.index('"')+1:-1]
    s=re.sub(r'\\\n\s*','',s)
    return s.replace('\\n','\n').replace('\\"','"').replace('\\\\','\\').replace('\\t','\t')
FILE=['a.rs']
def sp(t): return '⟨%s, %d, %d⟩'%(q(FILE[0]),t.l,t.c)
DEL={'(':'.paren','{':'.brace','[':'.bracket'}
def tt(t):
    if isinstance(t,Group): return '(.group %s [%s] %s)'%(DEL[t.d],', '.join(map(tt,t.ts)),sp(t))
    if t.k=='id': return '(.ident %s %s)'%(q(t.s),sp(t))
    if t.k=='p': return "(.punct '%s' %s)"%(t.s if t.s not in "'\\" else '\\'+t.s,sp(t))
    if t.k=='life': return "(.punct '\\'' %s), (.ident %s %s)"%(sp(t),q(t.s[1:]),sp(t))
    return '(.lit %s %s)'%(lit(t),sp(t))
def lit(t):
    if t.k=='str' and t.s[0] in 'r"': return '(.str %s)'%q(unstr(t.s))
    if t.k=='num' and re.match(r'\d+$',t.s): return '(.int %s)'%t.s
    if t.k=='num' and re.match(r'\d+usize$',t.s): return '(.usize %s)'%t.s[:-5]
    return '(.other %s)'%q(t.s)
def tts(ts): return '['+', '.join(map(tt,ts))+']'
class Node:
    def __init__(self,kind,body,tok,attrs=(),**kw):
        self.kind=kind;self.body=body;self.tok=tok;self.attrs=list(attrs);self.__dict__.update(kw)
    def lean(self): 
        return '(.mk [%s] %s (%s))'%(', '.join(self.attrs),sp(self.tok),self.body() if callable(self.body) else self.body)
KW=set('as break const continue crate else enum extern false fn for if impl in let loop match mod move mut pub ref return static struct trait true type unsafe use where while async await dyn yield'.split())
BLOCKISH={'if','while','for','loop','match','unsafe','block','tryblock','const'}
class P:
    def __init__(self,ts): self.ts=ts;self.i=0
    def peek(self,n=0): return self.ts[self.i+n] if self.i+n<len(self.ts) else None
    def at(self,s,n=0):
        t=self.peek(n); return t is not None and not isinstance(t,Group) and t.k in('p','id') and t.s==s
    def grp(self,d,n=0):
        t=self.peek(n); return isinstance(t,Group) and t.d==d
    def isid(self,n=0):
        t=self.peek(n); return t is not None and t.k=='id' and t.s not in KW
    def op(self,s,n=0):
        """multi-char operator"""
        for j,ch in enumerate(s):
            t=self.peek(n+j)
            if t is None or t.k!='p' or t.s!=ch: return False
            if j<len(s)-1 and not t.joint: return False
        return True
    def next(self):
        t=self.peek()
        if t is None: raise ParseError('eof')
        self.i+=1; return t
    def eat(self,s):
        if self.op(s) if not re.match(r'\w',s) else self.at(s):
            self.i+=len(s) if not re.match(r'\w',s) else 1; return True
        return False
    def expect(self,s):
        t=self.peek()
        if not self.eat(s): raise ParseError('expected %s got %r at %s'%(s,t,t and (t.l,t.c)))
        return t
    def end(self): return self.i>=len(self.ts)
    # attributes
    def outer(self):
        out=[]
        while self.at('#') and self.grp('[',1):
            self.next(); g=self.next(); out.append(meta(g.ts))
        return out
    def inner(self):
        out=[]
        while self.at('#') and self.at('!',1) and self.grp('[',2):
            self.next(); self.next(); g=self.next(); out.append(meta(g.ts))
        return out
    # paths
    def generic(self):
        """skip <...>, return tokens"""
        st=self.i; self.expect('<'); d=1
        while d:
            t=self.next()
            if t.k=='p' and t.s=='<': d+=1
            elif t.k=='p' and t.s=='>' : d-=1
            elif t.k=='p' and t.s=='-' and self.at('>'): self.next()
        return self.ts[st:self.i]
    def path(self,typ=False):
        """returns (lean Path, tokens)"""
        st=self.i; lead=False; segs=[]
        if self.op('::'): self.i+=2; lead=True
        while True:
            t=self.peek()
            if t is None or t.k!='id' or (t.s in KW and t.s not in('crate',)) : raise ParseError('path at %r'%t)
            self.next(); has=False
            if typ and self.at('<'): self.generic(); has=True
            elif typ and t.s in('Fn','FnMut','FnOnce') and self.grp('('):
                self.next(); has=True
                if self.op('->'): self.i+=2; self.type()
            elif self.op('::') and self.at('<',2): self.i+=2; self.generic(); has=True
            segs.append((t.s,has))
            if self.op('::') and self.peek(2) is not None and self.peek(2).k=='id': self.i+=2
            else: break
        return '⟨%s, [%s]⟩'%('true' if lead else 'false',', '.join('⟨%s, %s⟩'%(q(s),'true' if h else 'false') for s,h in segs)),self.ts[st:self.i]
    def type(self):
        """returns (lean RetType, tokens)"""
        st=self.i
        t=self.peek()
        if t is None: raise ParseError('type')
        def rest(): return self.ts[st:self.i]
        if isinstance(t,Group): self.next(); return '(.other %s)'%q(text(rest())),rest()
        if self.at('&') :
            self.next()
            if self.peek() is not None and self.peek().k=='life': self.next()
            self.eat('mut'); self.type(); return '(.other %s)'%q(text(rest())),rest()
        if self.at('*'):
            self.next(); self.next(); self.type(); return '(.other %s)'%q(text(rest())),rest()
        if self.at('!') or self.at('_'): self.next(); return '(.other %s)'%q(text(rest())),rest()
        if self.at('impl') or self.at('dyn'):
            self.next(); self.bounds(); return '(.other %s)'%q(text(rest())),rest()
        if self.at('<'):
            self.generic()
            while self.op('::'): self.i+=2; self.next()
            return '(.other %s)'%q(text(rest())),rest()
        if self.at('fn'):
            self.next(); self.next()
            if self.op('->'): self.i+=2; self.type()
            return '(.other %s)'%q(text(rest())),rest()
        p,ts=self.path(True)
        return '(.path %s)'%p,ts
    def bounds(self):
        while True:
            if self.peek() is not None and self.peek().k=='life': self.next()
            else:
                if self.at('?'): self.next()
                self.type()
            if not self.eat('+'): break
    # patterns: tokens up to a stop
    def until(self,stop):
        st=self.i
        while not self.end() and not stop(self): self.next()
        return self.ts[st:self.i]
    # expressions
    def expr(self,nostruct=False): return self.assign(nostruct)
    PREC=[['||'],['&&'],['==','!=','<=','>=','<','>'],['|'],['^'],['&'],['<<','>>'],['+','-'],['*','/','%']]
    ASG=['=','+=','-=','*=','/=','%=','^=','&=','|=','<<=','>>=']
    def binop(self):
        for o in ['<<=','>>=','+=','-=','*=','/=','%=','^=','&=','|=','==','!=','<=','>=','&&','||','<<','>>','..=','...','..','=>','->','=','<','>','|','^','&','+','-','*','/','%']:
            if self.op(o): return o
        return None
    def assign(self,ns):
        l=self.range(ns)
        o=self.binop()
        if o in self.ASG:
            self.i+=len(o); r=self.assign(ns)
            if o=='=': return Node('assign',lambda:'.assign %s %s'%(l.lean(),r.lean()),l.tok,left=l)
            return Node('binary',lambda:'.binary %s %s %s'%(l.lean(),q(o),r.lean()),l.tok,left=l)
        return l
    def startsexpr(self,ns):
        t=self.peek()
        if t is None: return False
        if isinstance(t,Group): return not(t.d=='{' and ns)
        if t.k in('str','num','char','life'): return True
        if t.k=='id': return t.s not in('as','else','in','where')
        return t.s in '#-!&*|<' or self.op('::') 
    def range(self,ns):
        if self.op('..'):
            t=self.peek(); o='..=' if self.op('..=') else '..'
            self.i+=len(o)
            if self.startsexpr(ns):
                e=self.bin(0,ns); return Node('range',lambda:'.range none %s (some %s)'%(q(o),e.lean()),t)
            return Node('range','.range none %s none'%q(o),t)
        l=self.bin(0,ns)
        return self.rangetail(l,ns)
    def rangetail(self,l,ns):
        if self.op('..'):
            o='..=' if self.op('..=') else '..'
            self.i+=len(o)
            if self.startsexpr(ns):
                e=self.bin(0,ns); return Node('range',lambda:'.range (some %s) %s (some %s)'%(l.lean(),q(o),e.lean()),l.tok)
            return Node('range',lambda:'.range (some %s) %s none'%(l.lean(),q(o)),l.tok)
        return l
    def bin(self,lv,ns,l=None):
        if lv==len(self.PREC): return self.cast(ns,l)
        l=self.bin(lv+1,ns,l)
        while True:
            o=self.binop()
            if o in self.PREC[lv]:
                self.i+=len(o); r=self.bin(lv+1,ns)
                l=(lambda l,r,o: Node('binary',lambda:'.binary %s %s %s'%(l.lean(),q(o),r.lean()),l.tok,left=l))(l,r,o)
            else: return l
    def cast(self,ns,e=None):
        if e is None: e=self.unary(ns)
        while self.at('as'):
            self.next(); _,ts=self.type()
            e=(lambda e,ts: Node('cast',lambda:'.cast %s %s'%(e.lean(),q(text(ts))),e.tok,left=e))(e,ts)
        return e
    def unary(self,ns):
        attrs=self.outer()
        t=self.peek()
        if t is None: raise ParseError('expr eof')
        if self.at('&'):
            self.next()
            if self.at('raw') and (self.at('const',1) or self.at('mut',1)):
                self.next();self.next(); e=self.unary(ns)
                return Node('raw',lambda:'.rawAddr %s'%e.lean(),t,attrs)
            mut=self.eat('mut'); e=self.unary(ns)
            # the model has no slot for `mut`
            return Node('ref',lambda:'.reference %s'%e.lean(),t,attrs)
        if t.k=='p' and t.s in '*!-':
            self.next(); e=self.unary(ns)
            return Node('unary',lambda:'.unary %s %s'%(q(t.s),e.lean()),t,attrs)
        e=self.postfix(self.atom(ns),ns)
        e.attrs=attrs+e.attrs
        return e
    def args(self):
        g=self.next(); p=P(g.ts); out=[]
        while not p.end():
            out.append(p.expr()); 
            if not p.eat(','): break
        if not p.end(): raise ParseError('args')
        return out
    def postfix(self,e,ns):
        while True:
            t=self.peek()
            if t is None: return e
            if self.grp('('):
                a=self.args()
                e=(lambda e,a: Node('call',lambda:'.call %s [%s]'%(e.lean(),', '.join(x.lean() for x in a)),e.tok))(e,a)
            elif self.at('.') and not self.op('..'):
                self.next(); n=self.next()
                if n.k=='id' and n.s=='await': e=(lambda e:Node('await',lambda:'.await %s'%e.lean(),e.tok))(e); continue
                if n.k=='num' :
                    for part in n.s.split('.'):
                        e=(lambda e,m:Node('field',lambda:'.field %s %s'%(e.lean(),q(m)),e.tok))(e,part)
                    continue
                if n.k!='id': raise ParseError('field %r'%n)
                name=n.s
                if self.op('::') and self.at('<',2):
                    self.i+=2; name+=' :: '+text(self.generic())
                if self.grp('('):
                    a=self.args()
                    e=(lambda e,a,name: Node('mcall',lambda:'.methodCall %s %s [%s]'%(e.lean(),q(name),', '.join(x.lean() for x in a)),e.tok))(e,a,name)
                else: e=(lambda e,name:Node('field',lambda:'.field %s %s'%(e.lean(),q(name)),e.tok))(e,name)
            elif self.grp('['):
                g=self.next(); p=P(g.ts); i=p.expr()
                if not p.end(): raise ParseError('index')
                e=(lambda e,i:Node('index',lambda:'.index %s %s'%(e.lean(),i.lean()),e.tok))(e,i)
            elif self.at('?'):
                self.next()
                e=(lambda e,t:Node('try',lambda:'.try_ %s %s'%(e.lean(),sp(t)),e.tok))(e,t)
            else: return e
    def atom(self,ns):
        t=self.peek()
        if t.k in('str','num','char'): self.next(); return Node('lit','.lit %s'%lit(t),t)
        if t.k=='life':
            self.next(); self.expect(':'); e=self.atom(ns); e.label=t.s; e.tok=t; return e
        if isinstance(t,Group):
            if t.d=='(':
                self.next(); p=P(t.ts)
                if p.end(): return Node('tuple','.tuple []',t)
                a=[p.expr()]; comma=False
                while p.eat(','):
                    comma=True
                    if p.end(): break
                    a.append(p.expr())
                if not p.end(): raise ParseError('paren %r'%p.ts)
                if not comma: return Node('paren',lambda:'.paren %s'%a[0].lean(),t)
                return Node('tuple',lambda:'.tuple [%s]'%', '.join(x.lean() for x in a),t)
            if t.d=='[':
                self.next(); p=P(t.ts)
                if p.end(): return Node('array','.array []',t)
                a=[p.expr()]
                if p.eat(';'):
                    n=p.expr()
                    if not p.end(): raise ParseError('repeat')
                    return Node('repeat',lambda:'.repeat_ %s %s'%(a[0].lean(),n.lean()),t)
                while p.eat(','):
                    if p.end(): break
                    a.append(p.expr())
                if not p.end(): raise ParseError('array')
                return Node('array',lambda:'.array [%s]'%', '.join(x.lean() for x in a),t)
            ia,b=block(self.next()); n=Node('block',None,t,ia); n.label=''
            n.body=lambda:'.block %s %s'%(q(n.label),b); return n
        if t.k=='id':
            if t.s in('true','false'): self.next(); return Node('lit','.lit (.other %s)'%q(t.s),t)
            if t.s=='if':
                self.next(); c=self.cond(); ia,b=block(self.grpnext('{'))
                e=None
                if self.at('else'):
                    self.next(); e=self.atom(False)
                return Node('if',lambda:'.if_ %s %s %s'%(c.lean(),b,'none' if e is None else '(some %s)'%e.lean()),t)
            if t.s=='while':
                self.next(); c=self.cond(); ia,b=block(self.grpnext('{')); n=Node('while',None,t,ia); n.label=''
                n.body=lambda:'.while_ %s %s %s'%(q(n.label),c.lean(),b); return n
            if t.s=='for':
                self.next(); pat=self.until(lambda s:s.at('in')); self.expect('in'); e=self.expr(True); ia,b=block(self.grpnext('{')); n=Node('for',None,t,ia); n.label=''
                n.body=lambda:'.forLoop %s %s %s'%(q((n.label+' : ' if n.label else '')+'for '+text(pat)),e.lean(),b); return n
            if t.s=='loop':
                self.next(); ia,b=block(self.grpnext('{')); n=Node('loop',None,t,ia); n.label=''
                n.body=lambda:'.loop %s %s'%(q(n.label),b); return n
            if t.s=='match':
                self.next(); e=self.expr(True); g=self.grpnext('{'); p=P(g.ts); arms=[]; ia=p.inner()
                while not p.end():
                    at=p.outer()
                    pat=p.until(lambda s:s.op('=>') or s.at('if'))
                    gd=None
                    if p.eat('if'): gd=p.cond(False)
                    p.expect('=>')
                    bd=p.armbody()
                    arms.append((at,pat,gd,bd))
                return Node('match',lambda:'.match_ %s [%s]'%(e.lean(),', '.join('(.mk [%s] %s %s %s)'%(', '.join(a),q(text(pt)),'none' if g is None else '(some %s)'%g.lean(),b.lean()) for a,pt,g,b in arms)),t,ia)
            if t.s=='unsafe' and self.grp('{',1):
                self.next(); ia,b=block(self.next()); return Node('unsafe','.unsafe_ '+b,t,ia)
            if t.s=='const' and self.grp('{',1):
                self.next(); ia,b=block(self.next()); return Node('const','.const_ '+b,t,ia)
            if t.s=='try' and self.grp('{',1):
                self.next(); ia,b=block(self.next()); return Node('tryblock','.tryBlock '+b,t,ia)
            if t.s=='async' and (self.grp('{',1) or self.at('move',1) and self.grp('{',2)):
                self.next(); self.eat('move'); ia,b=block(self.next()); return Node('async','.async '+b,t,ia)
            if t.s in('move','async') : return self.closure()
            if t.s=='return':
                self.next()
                if self.startsexpr(ns) and not self.at(','):
                    e=self.expr(ns); return Node('ret',lambda:'.ret (some %s)'%e.lean(),t)
                return Node('ret','.ret none',t)
            if t.s=='break':
                self.next(); lb=''
                if self.peek() is not None and self.peek().k=='life': lb=self.next().s
                if self.startsexpr(ns):
                    e=self.expr(ns); return Node('break',lambda:'.break_ %s (some %s)'%(q(lb),e.lean()),t)
                return Node('break','.break_ %s none'%q(lb),t)
            if t.s=='continue':
                self.next(); lb=''
                if self.peek() is not None and self.peek().k=='life': lb=self.next().s
                return Node('continue','.continue_ %s'%q(lb),t)
            if t.s=='let':
                self.next(); pat=self.until(lambda s:s.at('=') and not s.op('==') and not s.op('=>')); self.expect('=')
                e=self.bin(2,True) # no && or ||
                return Node('let',lambda:'.let_ %s %s'%(q(text(pat)),e.lean()),t)
            if t.s=='_': self.next(); return Node('infer','.infer',t)
        if t.k=='p' and t.s=='|': return self.closure()
        if t.k=='p' and t.s=='<':
            ts=self.generic(); st=self.i
            rest=[]
            while self.op('::'):
                self.i+=2; rest.append(self.next().s)
            # qualified path: only the last segment is inspected
            return Node('path','.path ⟨false, [%s]⟩'%', '.join(['⟨%s, false⟩'%q(text(ts))]+['⟨%s, false⟩'%q(x) for x in rest]),t)
        p,ts=self.path()
        if self.at('!') and isinstance(self.peek(1),Group) and not self.op('!='):
            self.next(); g=self.next()
            return Node('mac',lambda:'.mac %s'%mac(p,g),t,mac=(p,g))
        if self.grp('{') and not ns and self.looksstruct():
            g=self.next(); pp=P(g.ts); fs=[]; rest=None
            while not pp.end():
                if pp.op('..'):
                    pp.i+=2
                    rest=pp.expr() if not pp.end() else None
                    break
                at=pp.outer(); n=pp.next()
                if pp.eat(':'): fs.append((at,n.s,pp.expr()))
                else: fs.append((at,n.s,Node('path','.path (.ofIdents [%s])'%q(n.s),n)))
                if not pp.eat(','): break
            if not pp.end(): raise ParseError('struct')
            hd=text(ts)
            return Node('struct',lambda:'.struct_ %s [%s] %s'%(q(hd),', '.join('(.mk [%s] %s %s)'%(', '.join(a),q(n),e.lean()) for a,n,e in fs),'none' if rest is None else '(some %s)'%rest.lean()),t)
        return Node('path','.path %s'%p,t)
    def looksstruct(self):
        g=self.peek(); ts=g.ts
        return True
    def grpnext(self,d):
        if not self.grp(d): raise ParseError('expected group %s got %r'%(d,self.peek()))
        return self.next()
    def cond(self,ns=True):
        return self.expr(ns)
    def armbody(self):
        # blocks end the arm without a comma
        at=self.outer()
        t=self.peek()
        if self.blockstart():
            save=self.i; e=self.atom(False)
            if not (self.at('.') and not self.op('..') or self.at('?')):
                if self.end() or self.eat(',') or e.kind=='block' or True:
                    # requires_comma is false for block-like expressions
                    nxt=self.binop()
                    if not(nxt and nxt not in('|','<','&') and not self.end()) or e.kind in BLOCKISH:
                        e.attrs=at+e.attrs
                        return e
            self.i=save
        e=self.expr(); 
        # attributes parsed by us belong to the postfix expression
        if at:
            x=e
            while hasattr(x,'left') and x.kind in('assign','binary','cast'): x=x.left
            x.attrs=at+x.attrs
        if not self.end(): 
            if not self.eat(','):
                raise ParseError('arm comma at %r'%self.peek())
        return e
    def blockstart(self):
        t=self.peek()
        if t is None: return False
        if isinstance(t,Group): return t.d=='{'
        if t.k=='life' and self.at(':',1): return True
        if t.k!='id': return False
        if t.s in('if','while','for','loop','match'): return True
        return t.s in('unsafe','const','try') and self.grp('{',1)
    def closure(self):
        t=self.peek(); st=self.i
        while self.at('move') or self.at('async'): self.next()
        if self.op('||'): self.i+=2
        else:
            self.expect('|')
            self.until(lambda s:s.at('|')); self.expect('|')
        if self.op('->'):
            self.i+=2; rt,_=self.type()
            hd=self.ts[st:self.i]
            g=self.peek(); ia,b=block(self.grpnext('{'))
            body='(.mk [%s] %s (.block "" %s))'%(', '.join(ia),sp(g),b)
            return Node('closure','.closure ⟨%s, %s⟩ %s'%(rt,q(text(hd)+' { }'),body),t)
        hd=self.ts[st:self.i]
        e=self.expr()
        return Node('closure',lambda:'.closure ⟨.none, %s⟩ %s'%(q(text(hd)+' { }'),e.lean()),t)
    # statements
    def isitem(self):
        j=0
        if self.at('pub'): return True
        t=self.peek()
        if t is None or t.k!='id': return False
        if t.s in('fn','struct','enum','impl','mod','static','trait','use','type','extern'): return True
        if t.s=='union' and self.isid(1): return True
        if t.s=='const' : return not self.grp('{',1)
        if t.s=='async' : return self.at('fn',1)
        if t.s=='unsafe': return self.at('fn',1) or self.at('impl',1) or self.at('trait',1) or self.at('extern',1)
        if t.s=='macro_rules' and self.at('!',1) and self.isid(2): return True
        return False
    def stmt(self,alone=False):
        attrs=self.outer()
        t=self.peek()
        if t is None: raise ParseError('stmt eof')
        if self.at(';'): return None if self.next() else None
        if self.at('let') :
            self.next()
            pat=self.until(lambda s:s.at(';') or (s.at('=') and not s.op('==')))
            if self.eat(';'): return '(.localDecl [%s] %s)'%(', '.join(attrs),q(text(pat)))
            self.expect('='); e=self.expr(); dv=None
            if self.at('else'):
                self.next(); g=self.peek(); ia,b=block(self.grpnext('{'))
                dv='(.mk [%s] %s (.block "" %s))'%(', '.join(ia),sp(g),b)
            self.expect(';')
            return '(.localInit [%s] %s %s %s)'%(', '.join(attrs),q(text(pat)),e.lean(),'none' if dv is None else '(some %s)'%dv)
        if self.isitem(): return '(.item %s)'%self.item(attrs)
        # statement macro with braces
        save=self.i
        try:
            p,ts=self.path()
            if self.at('!') and self.grp('{',1) and not(self.at('.',2) and not self.op('..',2) or self.at('?',2)):
                self.next(); g=self.next(); semi=self.eat(';')
                return '(.mac [%s] %s %s)'%(', '.join(attrs),mac(p,g),'true' if semi else 'false')
        except ParseError: pass
        self.i=save
        early=False
        if self.blockstart():
            e=self.atom(False)
            if self.at('.') and not self.op('..') or self.at('?'):
                e=self.postfix(e,False); e=self.afterpost(e)
            else: early=True
        else: e=self.expr()
        x=e
        while x.kind in('assign','binary','cast'): x=x.left
        x.attrs=attrs+x.attrs
        semi=self.eat(';')
        if e.kind=='mac' and (semi or e.mac[1].d=='{'):
            return '(.mac [%s] %s %s)'%(', '.join(e.attrs),mac(*e.mac),'true' if semi else 'false')
        if not semi and not alone and not self.end() and not early and e.kind not in BLOCKISH: raise ParseError('missing ; at %r %s'%(self.peek(),self.peek().l))
        return '(.expr %s %s)'%(e.lean(),'true' if semi else 'false')
    def afterpost(self,e):
        # continue as binary operand: e is already a unary-level expression
        l=self.bin(0,False,e); l=self.rangetail(l,False)
        o=self.binop()
        if o in self.ASG:
            self.i+=len(o); r=self.assign(False)
            if o=='=': return Node('assign',lambda:'.assign %s %s'%(l.lean(),r.lean()),l.tok,left=l)
            return Node('binary',lambda:'.binary %s %s %s'%(l.lean(),q(o),r.lean()),l.tok,left=l)
        return l
    # items
    def item(self,attrs=None):
        if attrs is None: attrs=self.outer()
        st=self.i
        A='[%s]'%', '.join(attrs)
        if self.at('macro_rules') and self.at('!',1) and self.isid(2):
            self.i+=2; n=self.next(); g=self.next()
            if g.d!='{': self.expect(';')
            return '(.macroRules %s %s %s)'%(A,q(n.s),mac('(.ofIdents ["macro_rules"])',g,raw=True))
        if self.at('pub'):
            self.next()
            if self.grp('('): self.next()
        if self.op('::') or (self.isid() and self.peek().s not in('union',)):
            p,ts=self.path()
            if self.at('!') and isinstance(self.peek(1),Group):
                self.next(); g=self.next()
                if g.d!='{': self.expect(';')
                return '(.mac %s %s)'%(A,mac(p,g))
            raise ParseError('item path')
        k=self.itemkind()
        if k=='fn':
            sig,b=self.fn(st)
            if b is None: raise ParseError('fn body')
            ia,b=b
            return '(.fn [%s] %s %s)'%(', '.join(attrs+ia),sig,b)
        if k=='impl' or k=='trait':
            self.until(lambda s:s.grp('{')); hd=self.ts[st:self.i]; g=self.grpnext('{'); p=P(g.ts); out=[]; ia=p.inner()
            while not p.end(): out.append(p.assoc(k))
            return '(.%s_ [%s] %s [%s])'%(k,', '.join(attrs+ia),q(text(hd)),', '.join(out))
        if k=='mod':
            self.next(); n=self.next()
            if self.eat(';'): return '(.other %s %s)'%(A,q(text(self.ts[st:self.i])))
            hd=self.ts[st:self.i]
            g=self.grpnext('{'); p=P(g.ts); ia=p.inner(); out=[]
            while not p.end(): out.append(p.item())
            return '(.mod_ [%s] %s [%s])'%(', '.join(attrs+ia),q(text(hd)),', '.join(out))
        if k in('const','static'):
            self.until(lambda s:s.at('=')); hd=self.ts[st:self.i]; self.expect('='); e=self.expr(); self.expect(';')
            return '(.%s_ %s %s %s)'%(k,A,q(text(hd)),e.lean())
        # other
        if k in('struct','enum','union'):
            self.until(lambda s:s.at(';') or s.grp('{'))
            self.next()
        else:
            self.until(lambda s:s.at(';')); self.expect(';')
        return '(.other %s %s)'%(A,q(text(self.ts[st:self.i])))
    def itemkind(self):
        j=0
        while True:
            t=self.peek(j)
            if t is None or t.k!='id': 
                if t is not None and t.k=='str': j+=1; continue
                raise ParseError('item at %r'%t)
            if t.s in('fn','impl','trait','mod','static','struct','enum','use','type'): return t.s
            if t.s=='union': return t.s
            if t.s=='const':
                u=self.peek(j+1)
                if u is not None and u.k=='id' and u.s in('fn','unsafe','async'): j+=1; continue
                if isinstance(u,Group): raise ParseError('const block')
                return 'const'
            if t.s=='extern' :
                u=self.peek(j+1)
                if u is not None and u.k=='id' and u.s=='crate': return 'use'
                j+=1; continue
            if t.s in('unsafe','async','default'): j+=1; continue
            raise ParseError('item at %r'%t)
    def fn(self,st):
        while not self.at('fn'): self.next()
        self.next(); n=self.next()
        if self.at('<'): self.generic()
        self.grpnext('('); rt='.none'
        if self.op('->'): self.i+=2; rt,_=self.type()
        if self.at('where'): self.until(lambda s:s.grp('{') or s.at(';'))
        sig='⟨%s, %s, %s⟩'%(q(n.s),rt,q(text(self.ts[st:self.i])))
        if self.eat(';'): return sig,None
        return sig,block(self.grpnext('{'))
    def assoc(self,k):
        attrs=self.outer(); st=self.i; A='[%s]'%', '.join(attrs)
        if self.at('pub'):
            self.next()
            if self.grp('('): self.next()
        if self.isid() or self.op('::'):
            p,ts=self.path()
            self.expect('!'); g=self.next()
            if g.d!='{': self.expect(';')
            return '(.mac %s %s)'%(A,mac(p,g))
        kk=self.itemkind()
        if kk=='fn':
            sig,b=self.fn(st)
            if b is None: return '(.other %s %s)'%(A,q(text(self.ts[st:self.i])))
            ia,b=b
            return '(.fn [%s] %s %s)'%(', '.join(attrs+ia),sig,b)
        if kk=='const':
            self.until(lambda s:s.at('=') or s.at(';'))
            if self.eat(';'): return '(.other %s %s)'%(A,q(text(self.ts[st:self.i])))
            hd=self.ts[st:self.i]; self.expect('='); e=self.expr(); self.expect(';')
            return '(.const_ %s %s %s)'%(A,q(text(hd)),e.lean())
        self.until(lambda s:s.at(';')); self.expect(';')
        return '(.other %s %s)'%(A,q(text(self.ts[st:self.i])))
def block(g):
    p=P(g.ts); ia=p.inner(); out=[]
    while not p.end():
        s=p.stmt()
        if s is not None: out.append(s)
    return ia,'[%s]'%', '.join(out)
def meta(ts):
    p=P(ts); path,pt=p.path()
    if p.end(): return '(.path %s)'%path
    if isinstance(p.peek(),Group):
        g=p.next(); assert p.end()
        return '(.list %s %s)'%(path,tts(g.ts))
    p.expect('='); rest=p.ts[p.i:]
    return '(.nv %s %s)'%(path,value(rest))
def value(ts):
    tx=text(ts)
    if len(ts)==1 and ts[0].k=='str': v='(.litStr %s)'%q(unstr(ts[0].s))
    else:
        try:
            p=P(ts); pa,_=p.path()
            v='(.path %s)'%pa if p.end() else '.other'
        except ParseError: v='.other'
    return '⟨%s, %s⟩'%(v,q(tx))
def mac(p,g,raw=False):
    body=None
    if not raw:
        try: body='(.parsed [%s])'%', '.join(evs(g.ts))
        except (ParseError,RecursionError): body=None
    if body is None: body='(.raw %s)'%tts(g.ts)
    return '(.mk %s %s %s)'%(p,DEL[g.d],body)
def evs(ts):
    p=P(ts); out=[]
    while not p.end():
        def okpos(): return p.end() or p.at(',') or p.at(';')
        st=p.i; r=None
        # file: parses items to the end of input
        try:
            ia=p.inner(); its=[]
            while not p.end(): its.append(p.item())
            r='.file [%s] [%s]'%(', '.join(ia),', '.join(its))
        except ParseError: p.i=st
        if r is None:
            try:
                x=p.item()
                if okpos(): r='.item %s'%x
                else: p.i=st
            except ParseError: p.i=st
        if r is None:
            try:
                e=p.expr()
                if okpos(): r='.expr %s'%e.lean()
                else: p.i=st
            except ParseError: p.i=st
        if r is None:
            try:
                s=p.stmt(alone=True)
                if s is not None and okpos(): r='.stmt %s'%s
                else: p.i=st
            except ParseError: p.i=st
        if r is None: raise ParseError('evaluable')
        sep='.comma' if p.eat(',') else '.semi' if p.eat(';') else '.none'
        out.append('(%s %s)'%(r,sep))
    return out
def parsefile(src,name):
    """items with #[hooq]: list of (args metas, lean item, token range)"""
    FILE[0]=name
    return parsetoks(trees(lex(src)))
def parsetoks(ts):
    p=P(ts); p.inner(); out=[]
    while not p.end():
        st=p.i
        attrs=[]; hooq=None
        while p.at('#') and p.grp('[',1):
            p.next(); g=p.next()
            if g.ts and g.ts[0].s=='hooq' and (len(g.ts)==1 or isinstance(g.ts[1],Group)):
                hooq=g.ts[1].ts if len(g.ts)>1 else []
            elif hooq is None or True: attrs.append(meta(g.ts))
        it=p.item(attrs)
        out.append((hooq,it,p.ts[st:p.i]))
    return out
