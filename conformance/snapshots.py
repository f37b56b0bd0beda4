"""Snapshot tests of the repository: walker, special and book sources."""
import compare as run,glob,os,re,tomllib,json,sys
import rust
base='/repo/hooq-macros/tests/'
def crate(f):
    d=os.path.dirname(f)
    while not os.path.exists(d+'/Cargo.toml'): d=os.path.dirname(d)
    return d
def name(f): return '<hooq_root>/'+f[len(crate(f))+1:]
def tv(v):
    if isinstance(v,bool): return '(.bool %s)'%str(v).lower()
    if isinstance(v,str): return '(.str %s)'%rust.q(v)
    if isinstance(v,list): return '(.arr [%s])'%', '.join(map(tv,v))
    if isinstance(v,dict): return '(.table %s)'%ents(v)
    return '.other'
def ents(d): return '[%s]'%', '.join('(%s, %s)'%(rust.q(k),tv(v)) for k,v in d.items())
def toml(f):
    d=os.path.dirname(f)
    while d.startswith('/repo'):
        if os.path.exists(d+'/hooq.toml'): return d+'/hooq.toml'
        if os.path.exists(d+'/Cargo.toml'): return None
        d=os.path.dirname(d)
def strings(d):
    out=[]
    for v in d.values() if isinstance(d,dict) else d:
        if isinstance(v,str): out.append(v)
        elif isinstance(v,(dict,list)): out+=strings(v)
    return out
heads=[];envs={}
def feats(f):
    t=open(crate(f)+'/Cargo.toml').read()
    return 'consume-question' in t and not f.startswith('/repo/hooq-macros/tests/special/inert') and crate(f)!='/repo/hooq-macros'
def env(f):
    c=str(bool(feats(f))).lower()
    t=toml(f)
    if t is None: return '(cenvWith %s (.ok (presetFlavors %s helpersTok ⟨true, true, true, true⟩)))'%(c,c)
    if (t,c) in envs: return envs[t,c]
    nm='env%d'%len(envs); envs[t,c]=nm
    d=tomllib.load(open(t,'rb')); ss=list(dict.fromkeys(strings(d)))
    rust.FILE[0]='toml'
    def tk(s):
        try: return '(some %s)'%rust.tts(run.T(s))
        except Exception: return 'none'
    def vl(s):
        try: return '(some %s)'%rust.value(run.T(s))
        except Exception: return 'none'
    def pth(s):
        try:
            p=rust.P(run.T(s)); return '(some %s)'%p.path()[0]
        except Exception: return 'none'
    heads.append("""
def te%s : TomlEnv where
  consume := %s
  parsePath := fun s => %s none
  lex := fun s => %s none
  parseExpr := fun s => %s none
def %s : Env := cenvWith %s (
  match readToml %s with
  | none => .error "bad toml"
  | some t =>
    match applyToml te%s (defaultSettings %s helpersTok) (presetFlavors %s helpersTok ⟨true, true, true, true⟩) t with
    | .ok m => .ok m
    | .error e => .error (reprStr e))
"""%(nm,c,''.join('if s = %s then %s else '%(rust.q(s),pth(s)) for s in ss),''.join('if s = %s then %s else '%(rust.q(s),tk(s)) for s in ss),''.join('if s = %s then %s else '%(rust.q(s),vl(s)) for s in ss),nm,c,ents(d),nm,c,c))
    return nm
if __name__=='__main__':
    pats=sys.argv[1:] or [base+'special/**/*.expanded.rs',base+'walker/**/*.expanded.rs','/repo/mdbook-source-code/*/src/main.expanded.rs']
    fs=sorted(f.replace('.expanded.rs','.rs') for p in pats for f in glob.glob(p,recursive=True))
    fs=[f for f in fs if os.path.exists(f)]
    ok=[]
    for f in fs:
        try: rust.parsefile(open(f).read(),f); ok.append(f)
        except Exception as e: print('PARSE',f,e)
    for f in ok: env(f)
    run.main(ok,name,env,None,'\n'.join(heads))
