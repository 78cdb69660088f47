import sys,subprocess,os
HERE=os.path.dirname(os.path.abspath(__file__))
sys.path.insert(0,HERE)
TMP='/tmp/conf'
os.makedirs(TMP,exist_ok=True)
LEAN=os.path.join(HERE,'..','..','lean')
from tree import *
BLOCK="address article aside blockquote body center dd details dialog dir div dl dt fieldset figcaption figure footer form frameset h1 h2 h3 h4 h5 h6 header hgroup hr html isindex li main menu nav noframes noscript ol output p pre section table tbody tfoot thead ul".split()
INLINE="a abbr acronym audio b bdi bdo big br button canvas cite code data datalist del dfn em embed i iframe img input ins kbd label map mark meter noscript object output picture progress q ruby s samp script select slot small span strong sub sup svg template textarea time u tt var video wbr".split()
def prelude(strike,table):
    f=lambda l:'['+','.join(lb(x) for x in l)+']'
    return f'''import Verif.Model.Render
open Verif Verif.Render
set_option maxRecDepth 100000
def E : Env := ⟨Config.newPlugin [], .smart, (fun u => let u := replaceAll [10] b!"%0A" (trimSpace u); Url.percentEncode (if u.length > 5 && u.take 5 != b!"data:" && false then u else u)), ⟨fun n => ({f(BLOCK)} : List Bytes).contains n, fun n => ({f(INLINE)} : List Bytes).contains n⟩, fun r => 48 ≤ r && r ≤ 57, {'some b!"~~"' if strike else 'none'}, {'some {}' if table else 'none'}⟩
def out (d : Node) : String := match convertNode E d with | none => "PANIC" | some b => toString (b.map UInt8.toNat)
'''
def variant():
    # The golden files of the CommonMark plugin are made with comments rendered as HTML
    # (/repo/plugin/commonmark/commonmark_test.go:14-28), so they need an edited copy of the model.
    d=TMP+'/lean'
    subprocess.run(['rm','-rf',d]); os.makedirs(d+'/Verif')
    for x in ('lakefile.toml','lake-manifest.json','lean-toolchain'):
        subprocess.run(['cp',os.path.join(LEAN,x),d],capture_output=True)
    for x in ('Basic','Model'): subprocess.run(['cp','-r',os.path.join(LEAN,'Verif',x),d+'/Verif/'])
    for x in ('Basic.lean',): subprocess.run(['cp',os.path.join(LEAN,'Verif',x),d+'/Verif/'],capture_output=True)
    f=d+'/Verif/Model/Render.lean'; t=open(f).read()
    for a,b in (('Bool := baseRemoves.contains name','Bool := name ≠ b!"#comment" && baseRemoves.contains name'),
                ('Bool := !isRemoved name && E.tables.isBlock name','Bool := name = b!"#comment" || (!isRemoved name && E.tables.isBlock name)'),
                ('  if data = listEndComment then b!"\\n\\n<!--THE END-->\\n\\n" else fallback E b!"#comment" []','  b!"\\n\\n<!--" ++ data ++ b!"-->\\n\\n"')):
        assert a in t, a
        t=t.replace(a,b)
    open(f,'w').write(t)
    subprocess.run(['lake','build','Verif.Model.Render'],cwd=d,capture_output=True)
    return d
def run(cases,strike=False,table=False,LEAN=LEAN):
    src=prelude(strike,table)+'\n'.join(f'#eval IO.println (out {term(parse(c))})' for c in cases)
    open(TMP+'/T.lean','w').write(src)
    r=subprocess.run(['lake','env','lean',TMP+'/T.lean'],cwd=LEAN,capture_output=True,text=True)
    res=[]
    for l in r.stdout.split('\n'):
        l=l.strip()
        if l.startswith('[') : 
            res.append(bytes(int(x) for x in l[1:-1].split(',') if x.strip()).decode('utf8','replace'))
        elif l=='PANIC': res.append('PANIC')
        elif l: print('??',l[:300])
    return res
if __name__=='__main__':
    import difflib
    V=None
    for f in sys.argv[1:]:
        if 'plugin/commonmark' in f and V is None: V=variant()
        i=open(f).read(); o=open(f.replace('.in.html','.out.md')).read()
        r=run([i],'plugin/strikethrough' in f,'plugin/table' in f,V if 'plugin/commonmark' in f else LEAN)
        if not r: print(f,'no result'); continue
        print(f, 'SAME' if r[0]==o else 'DIFF')
        if r[0]!=o:
            for l in list(difflib.unified_diff(o.split('\n'),r[0].split('\n'),lineterm='',n=1))[:60]: print(repr(l))
