import sys,html
from html.parser import HTMLParser
VOID={'area','base','br','col','embed','hr','img','input','link','meta','source','track','wbr','param','command','keygen'}
PCLOSE={'address','article','aside','blockquote','center','details','dialog','dir','div','dl','fieldset','figcaption','figure','footer','header','hgroup','main','menu','nav','ol','p','section','summary','ul','h1','h2','h3','h4','h5','h6','pre','listing','form','hr','table'}
HEADEL={'base','link','meta','title','style','script','noscript'}
class N:
    def __init__(s,k,name='',attrs=(),data=''):
        s.k=k;s.name=name;s.attrs=attrs;s.data=data;s.ch=[]
class B(HTMLParser):
    def __init__(s):
        super().__init__(convert_charrefs=False)
        s.doc=N('document'); s.html=None;s.head=None;s.body=None
        s.stack=[s.doc]; s.buf=''; s.skipnl=False
    def flush(s):
        d=s.buf; s.buf=''
        if s.skipnl and d:
            if d[0]=='\n': d=d[1:]
            s.skipnl=False
        if not d: return
        if s.body is None:
            d2=d.lstrip(' \t\n\r\f')
            if not d2 and len(s.stack)<=1: return
            if s.stack[-1].name in('title','style','script','noscript') : s.app(N('text',data=d)); return
            if s.stack[-1].name=='head':
                if not d2: s.app(N('text',data=d)); return
            s.ensure_body(); d=d2
            if not d: return
        s.app(N('text',data=d))
    def app(s,n):
        p=s.stack[-1]
        if n.k=='text' and p.ch and p.ch[-1].k=='text': p.ch[-1].data+=n.data
        else: p.ch.append(n)
    def ensure_html(s,a=()):
        if s.html is None:
            s.html=N('elem','html',a); s.doc.ch.append(s.html); s.stack=[s.doc,s.html]
    def ensure_head(s):
        s.ensure_html()
        if s.head is None:
            s.head=N('elem','head'); s.html.ch.append(s.head)
    def ensure_body(s,a=()):
        s.ensure_head()
        if s.body is None:
            s.body=N('elem','body',a); s.html.ch.append(s.body); s.stack=[s.doc,s.html,s.body]
    def in_scope(s,names,stop=('html','body','table','td','th','button','caption')):
        for n in reversed(s.stack):
            if n.name in names: return n
            if n.name in stop: return None
        return None
    def pop_to(s,n):
        while s.stack[-1] is not n: s.stack.pop()
        s.stack.pop()
    def handle_starttag(s,t,at):
        s.flush(); s.skipnl=False
        a=[(k,v if v is not None else '') for k,v in at]
        if t=='html': s.ensure_html(a); return
        if t=='head':
            s.ensure_html(); s.ensure_head(); s.stack=[s.doc,s.html,s.head]; return
        if t=='body': s.ensure_body(a); return
        if s.body is None:
            if t in HEADEL:
                s.ensure_head()
                if s.stack[-1].name!='head' : s.stack=[s.doc,s.html,s.head]
                n=N('elem',t,a); s.app(n)
                if t not in VOID: s.stack.append(n)
                return
            s.ensure_body()
        if t in PCLOSE:
            p=s.in_scope({'p'})
            if p: s.pop_to(p)
        if t in {'h1','h2','h3','h4','h5','h6'} and s.stack[-1].name in {'h1','h2','h3','h4','h5','h6'}: s.stack.pop()
        if t=='li':
            l=s.in_scope({'li'},('html','body','ul','ol','table','td'))
            if l: s.pop_to(l)
            p=s.in_scope({'p'})
            if p: s.pop_to(p)
        if t=='a':
            l=s.in_scope({'a'})
            if l: s.pop_to(l)
        if t in('td','th','tr','tbody','thead','tfoot'):
            c=s.in_scope({'td','th'},('html','body','table'))
            if c: s.pop_to(c)
        if t in('tr','tbody','thead','tfoot') and s.stack[-1].name=='tr': s.stack.pop()
        if t in('tbody','thead','tfoot') and s.stack[-1].name in('tbody','thead','tfoot'): s.stack.pop()
        if t=='tr' and s.stack[-1].name=='table':
            n=N('elem','tbody'); s.app(n); s.stack.append(n)
        if t in('td','th') and s.stack[-1].name=='table':
            n=N('elem','tbody'); s.app(n); s.stack.append(n)
        if t in('td','th') and s.stack[-1].name in('tbody','thead','tfoot'):
            n=N('elem','tr'); s.app(n); s.stack.append(n)
        n=N('elem',t,a); s.app(n)
        if t not in VOID: s.stack.append(n)
        if t=='pre': s.skipnl=True
    def handle_startendtag(s,t,at): s.handle_starttag(t,at)
    def handle_endtag(s,t):
        s.flush()
        if t in('body','html'): return
        if t=='head': 
            if s.stack[-1].name=='head': s.stack.pop()
            return
        if t=='br': s.handle_starttag('br',[]);return
        if t=='p' and not s.in_scope({'p'}):
            s.handle_starttag('p',[])
        n=None
        for x in reversed(s.stack):
            if x.name==t: n=x;break
        if n and n.k=='elem': s.pop_to(n)
    def handle_data(s,d): s.buf+=d
    def handle_entityref(s,n): s.buf+=html.unescape('&'+n+';')
    def handle_charref(s,n): s.buf+=html.unescape('&#'+n+';')
    def handle_comment(s,d):
        s.flush()
        s.app(N('comment',data=d))
    def handle_decl(s,d):
        s.flush()
        s.doc.ch.append(N('doctype',data='html'))
def parse(h):
    b=B(); b.feed(h.replace('\r\n','\n')); b.close(); b.flush(); b.ensure_body(); return b.doc
def lb(x):
    return '['+','.join(str(c) for c in x.encode('utf8'))+']'
def term(n):
    if n.k in('text','comment','doctype'): return f'(.{n.k} {lb(n.data)})'
    ch='['+','.join(term(c) for c in n.ch)+']'
    if n.k=='document': return f'(.document {ch})'
    at='['+','.join(f'({lb(k)},{lb(v)})' for k,v in n.attrs)+']'
    return f'(.elem {lb(n.name)} {at} {ch})'
