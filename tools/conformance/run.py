#!/usr/bin/env python3
"""Evaluates the assertions of the unit tests of /repo on the model.

The test functions of the crate are read as text.  A small interpreter for the subset of Rust they use runs them; calls of
the crate's functions become requests to `server.lean.in`, which evaluates the definitions of the model.  An assertion
counts as `agrees`, `differs` or `skipped` (something it uses is not understood by the interpreter or not modelled).

This is a test of the model against the expectations written down by the authors of the crate, not a proof.

    run.py [-v] [-s] [path-substring ...]
"""
import json, os, re, subprocess, sys, tempfile

REPO = '/repo/parser/src'
LEAN = os.path.join(os.path.dirname(os.path.abspath(__file__)), '..', '..', 'lean')


class Skip(Exception):
    pass


class Panic(Exception):
    pass


class Mismatch(Panic):
    """A pattern does not match."""


# ---------------------------------------------------------------- tokens

TOK = re.compile(r'''
  (?P<ws>\s+|//[^\n]*)
 |(?P<raw>b?r(?P<h>\#*)"(?P<rawbody>.*?)"(?P=h))
 |(?P<str>"(?:[^"\\]|\\.)*")
 |(?P<chr>'(?:[^'\\]|\\(?:u\{[0-9a-fA-F]+\}|x[0-9a-fA-F]{2}|.))')
 |(?P<life>'[A-Za-z_]\w*)
 |(?P<num>\d[\d_]*(?:\.\d+)?(?:usize|u32|u8|i32|u64)?)
 |(?P<id>[A-Za-z_]\w*)
 |(?P<op>::|->|=>|==|!=|<=|>=|&&|\|\||\.\.=|\.\.|[-+*/%&|!<>=.,;:?@\#$(){}\[\]^~])
''', re.X | re.S)


def tokenize(s):
    out, i = [], 0
    while i < len(s):
        if s.startswith('/*', i):
            d, i = 1, i + 2
            while d:
                if s.startswith('/*', i):
                    d, i = d + 1, i + 2
                elif s.startswith('*/', i):
                    d, i = d - 1, i + 2
                else:
                    i += 1
            continue
        m = TOK.match(s, i)
        if not m:
            raise SyntaxError(f'token at {s[i:i+40]!r}')
        i = m.end()
        if m.group('ws'):
            continue
        line = s.count('\n', 0, m.start()) + 1 if False else m.start()
        if m.group('raw'):
            out.append(('str', m.group('rawbody'), line))
        elif m.group('str'):
            out.append(('str', unescape(m.group('str')[1:-1]), line))
        elif m.group('chr'):
            out.append(('chr', unescape(m.group('chr')[1:-1]), line))
        elif m.group('life'):
            out.append(('life', m.group('life'), line))
        elif m.group('num'):
            out.append(('num', int(re.sub(r'(usize|u32|u8|i32|u64|_)', '', m.group('num')).split('.')[0]), line))
        elif m.group('id'):
            out.append(('id', m.group('id'), line))
        else:
            out.append(('op', m.group('op'), line))
    return out


def unescape(s):
    def f(m):
        c = m.group(1)
        if c[0] == 'u':
            return chr(int(c[2:-1], 16))
        if c[0] == 'x':
            return chr(int(c[1:], 16))
        if c[0] == '\n':
            return ''
        return {'n': '\n', 't': '\t', 'r': '\r', '0': '\0'}.get(c, c)
    return re.sub(r'\\(u\{[0-9a-fA-F]+\}|x[0-9a-fA-F]{2}|\n\s*|.)', f, s, flags=re.S)


def close(toks, i):
    """Index of the bracket that closes the one at i."""
    d = 0
    while True:
        k, v, _ = toks[i]
        if k == 'op':
            if v in '([{':
                d += 1
            elif v in ')]}':
                d -= 1
                if d == 0:
                    return i
        i += 1


# ---------------------------------------------------------------- expressions

class Parse:
    def __init__(self, toks):
        self.t, self.i = toks, 0

    def peek(self, k=0):
        return self.t[self.i + k][:2] if self.i + k < len(self.t) else ('eof', '')

    def op(self, v):
        return self.peek() == ('op', v)

    def take(self):
        x = self.peek()
        self.i += 1
        return x

    def eat(self, v):
        if self.op(v):
            self.i += 1
            return True
        return False

    def need(self, v):
        if not self.eat(v):
            raise Skip(f'syntax: {v} expected, {self.peek()}')

    def done(self):
        return self.i >= len(self.t)

    BIN = [('||',), ('&&',), ('==', '!=', '<', '>', '<=', '>='), ('..', '..='), ('+', '-'), ('*', '/', '%')]

    def expr(self, nostruct=False, level=0):
        if level == len(self.BIN):
            return self.unary(nostruct)
        if level == 3 and (self.op('..') or self.op('..=')):
            self.take()
            return ('range', None, None if self.ends() else self.expr(nostruct, 4))
        a = self.expr(nostruct, level + 1)
        while self.peek()[0] == 'op' and self.peek()[1] in self.BIN[level]:
            o = self.take()[1]
            if level == 3:
                a = ('range', a, None if self.ends() else self.expr(nostruct, 4))
            else:
                a = ('bin', o, a, self.expr(nostruct, level + 1))
        return a

    def ends(self):
        return self.done() or (self.peek()[0] == 'op' and self.peek()[1] in ')]},;')

    def unary(self, ns):
        if self.eat('&'):
            if self.peek() == ('id', 'mut'):
                self.take()
            return self.unary(ns)
        if self.eat('&&'):
            return self.unary(ns)
        if self.eat('*'):
            return self.unary(ns)
        if self.eat('!'):
            return ('not', self.unary(ns))
        if self.eat('-'):
            return ('neg', self.unary(ns))
        return self.postfix(self.primary(ns), ns)

    def args(self, end):
        out = []
        while not self.eat(end):
            out.append(self.expr())
            if not self.eat(','):
                self.need(end)
                break
        return out

    def postfix(self, a, ns):
        while True:
            if self.eat('.'):
                k, v = self.take()
                if k == 'num':
                    a = ('field', a, str(v))
                    continue
                if self.op('::'):
                    self.take()
                    self.generic()
                if self.eat('('):
                    a = ('method', a, v, self.args(')'))
                else:
                    a = ('field', a, v)
            elif self.eat('('):
                a = ('call', a, self.args(')'))
            elif self.eat('['):
                a = ('index', a, self.expr())
                self.need(']')
            elif self.eat('?'):
                a = ('method', a, 'unwrap', [])
            elif self.peek() == ('id', 'as'):
                self.take()
                self.take()
            else:
                return a

    def generic(self):
        self.need('<')
        d = 1
        while d:
            v = self.take()[1]
            d += (v == '<') - (v == '>')

    def primary(self, ns):
        k, v = self.peek()
        if k in ('str', 'num'):
            self.take()
            return ('lit', v)
        if k == 'chr':
            self.take()
            return ('lit', v)
        if k == 'op' and v == '(':
            self.take()
            items, comma = [], False
            while not self.eat(')'):
                items.append(self.expr())
                if self.eat(','):
                    comma = True
                else:
                    self.need(')')
                    break
            return items[0] if len(items) == 1 and not comma else ('tuple', items)
        if k == 'op' and v == '[':
            self.take()
            return ('list', self.args(']'))
        if k == 'op' and v in ('|', '||'):
            return self.closure()
        if k == 'op' and v == '{':
            raise Skip('block expression')
        if k == 'id' and v == 'move':
            self.take()
            return self.closure()
        if k == 'id' and v in ('if', 'match', 'unsafe', 'loop', 'for', 'while'):
            raise Skip(v)
        if k == 'id':
            path = [self.take()[1]]
            while self.op('::'):
                self.take()
                if self.op('<'):
                    self.generic()
                else:
                    path.append(self.take()[1])
            if self.eat('!'):
                o = self.take()[1]
                end = {'(': ')', '[': ']', '{': '}'}[o]
                return ('macro', path[-1], self.args(end))
            if path == ['true']:
                return ('lit', True)
            if path == ['false']:
                return ('lit', False)
            if self.op('{') and not ns and path[-1][0].isupper():
                self.take()
                fs = {}
                while not self.eat('}'):
                    if self.op('..'):
                        raise Skip('struct update')
                    n = self.take()[1]
                    fs[str(n)] = self.expr() if self.eat(':') else ('path', [n])
                    if not self.eat(','):
                        self.need('}')
                        break
                return ('struct', path, fs)
            return ('path', path)
        raise Skip(f'syntax: {k} {v}')

    def closure(self):
        ps = []
        if not self.eat('||'):
            self.need('|')
            while not self.eat('|'):
                while self.eat('&') or self.eat('*'):
                    pass
                ps.append(self.pattern())
                if self.eat(':'):
                    while not (self.op(',') or self.op('|')):
                        self.take()
                self.eat(',')
        return ('closure', ps, self.expr())

    def pattern(self):
        while self.eat('&'):
            pass
        if self.peek() in (('id', 'mut'), ('id', 'ref')):
            self.take()
        if self.eat('('):
            out = []
            while not self.eat(')'):
                out.append(self.pattern())
                self.eat(',')
            return out
        k, v = self.take()
        if k != 'id':
            raise Skip('pattern')
        con = v
        while self.eat('::'):
            con = self.take()[1]
        if self.eat('('):
            out = []
            while not self.eat(')'):
                out.append(self.pattern())
                self.eat(',')
            return {'con': con, 'args': out}
        if self.eat('{'):
            out = {}
            while not self.eat('}'):
                if self.eat('..'):
                    continue
                n = self.take()[1]
                out[n] = self.pattern() if self.eat(':') else n
                self.eat(',')
            return {'con': con, 'fields': out}
        return con


# ---------------------------------------------------------------- the model

class Server:
    def __init__(self):
        d = tempfile.mkdtemp()
        p = os.path.join(d, 'server.lean')
        open(p, 'w').write(open(os.path.join(os.path.dirname(os.path.abspath(__file__)), 'server.lean.in')).read())
        self.p = subprocess.Popen(['lake', 'env', 'lean', '--run', p], cwd=LEAN, stdin=subprocess.PIPE,
                                  stdout=subprocess.PIPE, stderr=subprocess.DEVNULL, text=True, encoding='utf-8')
        self.n = 0

    def ask(self, **q):
        self.p.stdin.write(json.dumps(q, ensure_ascii=False) + '\n')
        self.p.stdin.flush()
        self.n += 1
        r = self.p.stdout.readline()
        if not r:
            raise RuntimeError(f'server stopped at {q}')
        r = json.loads(r)
        if r == '$unsupported':
            raise Skip('not modelled')
        if r == '$panic':
            raise Panic()
        if r == '$fuel':
            raise Panic('fuel')
        return r


S = None


class P:
    """A parser: a handle to a state kept by the server."""
    def __init__(self, i):
        self.i = i


class It:
    """An iterator (also stands for Some(x) in chains that need none of it)."""
    def __init__(self, l):
        self.l, self.k = list(l), 0


class Some:
    """Distinguishes Some(None)."""


def cat(o):
    return {'r': [[k, v] for k, v in o['refs'].items()], 't': [[k, v] for k, v in o['reftext_to_id'].items()]}


def tag(n, *a):
    return {'$': n, **{str(i): x for i, x in enumerate(a)}}


def span(s):
    return {'$': 'Span', 'data': s, 'line': 1, 'col': 1, 'offset': 0}


VARIANTS = {'Simple', 'Media', 'Section', 'RawDelimited', 'CompoundDelimited', 'Preamble', 'Break', 'DocumentAttribute'}
UNITS = {'HtmlSubstitutionRenderer'}


def is_block(v):
    return isinstance(v, dict) and v.get('$') in VARIANTS and '0' in v and len(v) == 2


def same(a, b):
    if isinstance(a, It):
        a = a.l[a.k:]
    if isinstance(b, It):
        b = b.l[b.k:]
    if isinstance(a, tuple):
        a = list(a)
    if isinstance(b, tuple):
        b = list(b)
    if isinstance(a, dict) and isinstance(b, dict):
        if '$' not in a or '$' not in b:
            return a.keys() == b.keys() and all(same(a[k], b[k]) for k in a)
        if a['$'] != b['$']:
            return False
        ka = {k for k in a if not k.startswith('_')}
        kb = {k for k in b if not k.startswith('_')}
        # fields the fixture leaves out
        return all(same(a[k], b[k]) for k in ka & kb) and (ka <= kb or kb <= ka)
    if isinstance(a, list) and isinstance(b, list):
        return len(a) == len(b) and all(same(x, y) for x, y in zip(a, b))
    if isinstance(a, dict) and a.get('$') == 'Span' and isinstance(b, str):
        return a['data'] == b
    if isinstance(b, dict) and b.get('$') == 'Span' and isinstance(a, str):
        return b['data'] == a
    if type(a) != type(b) and None not in (a, b):
        raise Skip(f'comparison of {type(a).__name__} and {type(b).__name__}')
    return a == b


def diff(a, b, at=''):
    """Where two values differ."""
    if isinstance(a, It):
        a = a.l[a.k:]
    if isinstance(b, It):
        b = b.l[b.k:]
    if isinstance(a, tuple):
        a = list(a)
    if isinstance(b, tuple):
        b = list(b)
    if isinstance(a, dict) and isinstance(b, dict) and a.get('$') == b.get('$'):
        for k in a:
            if k in b and not k.startswith('_') and not same(a[k], b[k]):
                return diff(a[k], b[k], f'{at}.{k}')
    if isinstance(a, list) and isinstance(b, list) and len(a) == len(b):
        for i, (x, y) in enumerate(zip(a, b)):
            if not same(x, y):
                return diff(x, y, f'{at}[{i}]')
    return f'{at}: {short(a)} vs {short(b)}'


def short(v):
    s = json.dumps(v, ensure_ascii=False, default=lambda x: f'<{type(x).__name__}>')
    return s if len(s) < 300 else s[:300] + '…'


# ---------------------------------------------------------------- evaluation

STEPS = {'SpecialCharacters', 'Quotes', 'AttributeReferences', 'CharacterReplacements', 'Macros', 'PostReplacement', 'Callouts'}


class Env:
    def __init__(self, fns):
        self.v, self.fns = {}, fns

    def ev(self, e):
        return getattr(self, 'e_' + e[0])(*e[1:])

    def e_lit(self, v):
        return v

    def e_tuple(self, l):
        return tuple(self.ev(x) for x in l)

    def e_list(self, l):
        return [self.ev(x) for x in l]

    def e_not(self, a):
        a = self.ev(a)
        if not isinstance(a, bool):
            raise Skip('not')
        return not a

    def e_neg(self, a):
        return -self.ev(a)

    def e_bin(self, o, a, b):
        a = self.ev(a)
        if o == '&&':
            return a and self.ev(b)
        if o == '||':
            return a or self.ev(b)
        b = self.ev(b)
        if o == '==':
            return same(a, b)
        if o == '!=':
            return not same(a, b)
        if not isinstance(a, int) or not isinstance(b, int):
            raise Skip(o)
        return {'<': a < b, '>': a > b, '<=': a <= b, '>=': a >= b, '+': a + b, '-': a - b, '*': a * b}[o]

    def e_range(self, a, b):
        return ('range', a and self.ev(a), b and self.ev(b))

    def e_index(self, a, i):
        a, i = self.ev(a), self.ev(i)
        if isinstance(a, It):
            a = a.l
        if isinstance(a, list) and isinstance(i, int):
            if i >= len(a):
                raise Panic('index')
            return a[i]
        raise Skip('index')

    def e_closure(self, ps, body):
        def f(*args):
            old = dict(self.v)
            for p, a in zip(ps, args):
                self.bind(p, a)
            try:
                return self.ev(body)
            finally:
                self.v = old
        return f

    def bind(self, p, v):
        if isinstance(p, list):
            if not isinstance(v, (tuple, list)) or len(v) != len(p):
                raise Skip('pattern')
            for q, x in zip(p, v):
                self.bind(q, x)
        elif isinstance(p, dict):
            if p['con'] == 'Some':
                if v is None:
                    raise Mismatch()
                return self.bind(p['args'][0], v)
            if not isinstance(v, dict) or v.get('$') != p['con']:
                raise Mismatch()
            for i, q in enumerate(p.get('args', [])):
                self.bind(q, v[str(i)])
            for n, q in p.get('fields', {}).items():
                self.bind(q, v[n])
        elif p == 'None':
            if v is not None:
                raise Mismatch()
        elif p != '_':
            self.v[p] = v

    def e_macro(self, n, args):
        if n == 'vec':
            return [self.ev(x) for x in args]
        if n == 'format' and len(args) == 1 and args[0][0] == 'lit' and '{' not in args[0][1]:
            return args[0][1]
        raise Skip(f'{n}!')

    def e_path(self, path):
        if len(path) == 1:
            n = path[0]
            if n in self.v:
                return self.v[n]
            if n == 'None':
                return None
            if n[0].islower() or n.isupper() and len(n) > 1:
                raise Skip(f'unknown {n}')
        if path[-1][0].isupper():
            if path[-2:-1] == ['SubstitutionGroup'] or path[-2:-1] == ['SubstitutionStep']:
                return {'$': path[-1], '_of': path[-2]}
            return tag(path[-1])
        raise Skip('::'.join(path))

    def e_struct(self, path, fs):
        n = path[-1]
        return {'$': n, **{k: self.ev(v) for k, v in fs.items()}}

    def e_field(self, a, f):
        a = self.ev(a)
        if isinstance(a, (tuple, list)) and f.isdigit():
            return a[int(f)]
        if isinstance(a, dict) and f in a:
            return a[f]
        if isinstance(a, dict) and a.get('$') == 'Content' and f == 'rendered':
            return a['rendered']
        raise Skip(f'field {f}')

    # calls of functions

    def e_call(self, f, args):
        if f[0] == 'closure':
            return self.ev(f)(*[self.ev(a) for a in args])
        if f[0] != 'path':
            raise Skip('call')
        path = f[1]
        n, t = path[-1], (path[-2] if len(path) > 1 else '')
        if len(path) == 1 and n in self.v and callable(self.v[n]):
            return self.v[n](*[self.ev(a) for a in args])
        a = [self.ev(x) for x in args]
        key = f'{t}::{n}' if t else n
        m = getattr(self, 'c_' + key.replace('::', '_'), None)
        if m:
            return m(*a)
        if n == 'Some':
            return a[0]
        if n in ('Ok',):
            return a[0]
        if t == 'CowStr' or key in ('String::from', 'Box::new', 'Rc::new', 'Cow::from', 'Cow::Borrowed', 'Cow::Owned'):
            if isinstance(a[0], dict) and a[0].get('$') == 'Span':
                return a[0]['data']
            return a[0]
        if n[0].isupper():
            if t in ('SubstitutionGroup',):
                return {'$': n, '_of': t, **{str(i): x for i, x in enumerate(a)}}
            return tag(n, *a)
        if n in self.fns and not t:
            return self.call_fn(n, a)
        raise Skip(f'call {key}')

    def call_fn(self, n, a):
        ps, body = self.fns[n]
        e = Env(self.fns)
        for p, x in zip(ps, a):
            e.bind(p, x)
        return e.run(body, Report(), '')

    def c_Parser_default(self):
        return P(S.ask(op='new'))

    c_Parser_new = c_Parser_default

    def c_Span_new(self, s):
        return span(s)

    def c_Span_default(self):
        return span('')

    def c_HashMap_from(self, l):
        return {k: v for k, v in l}

    def c_HashMap_new(self):
        return {}

    def c_Catalog_default(self):
        return {'$': 'Catalog', 'refs': {}, 'reftext_to_id': {}}

    c_Catalog_new = c_Catalog_default

    def c_SourceMap_default(self):
        return tag('SourceMap', [])

    def c_PathResolver_default(self):
        return {'$': 'PathResolver', 'file_separator': '/'}

    def c_HashMap_default(self):
        return {}

    def c_SectionNumber_default(self):
        return {'$': 'SectionNumber', 'section_type': tag('Normal'), 'components': []}

    def c_Passthroughs_extract_from(self, c):
        r = S.ask(op='extract', text=c['rendered'])
        c['rendered'] = r[1]
        return tag('Passthroughs', r[0])

    def c_RawDelimitedBlock_is_valid_delimiter(self, s):
        return S.ask(op='rawdelim', text=s['data'])

    def c_CompoundDelimitedBlock_is_valid_delimiter(self, s):
        return S.ask(op='compdelim', text=s['data'])

    def c_is_built_in_context(self, s):
        return S.ask(op='builtin', text=s)

    def c_Vec_new(self):
        return []

    def c_String_new(self):
        return ''

    def c_InlineFileHandler_from_pairs(self, l):
        return {k: v for k, v in l}

    def c_Attrlist_default(self):
        raise Skip('Attrlist::default')

    def c_Content_from(self, s):
        if not (isinstance(s, dict) and s.get('$') == 'Span'):
            raise Skip('Content::from')
        return {'$': 'Content', 'original': s, 'rendered': s['data']}

    def c_BlockMetadata_new(self, s):
        r = S.ask(op='metanew', meta=s)
        r['_text'] = s
        return r

    def c_BlockMetadata_parse(self, s, p):
        return S.ask(op='meta', p=p.i, span=s)

    def c_Block_parse(self, s, p):
        return S.ask(op='block', p=p.i, span=s)

    def metaop(self, op, m, p):
        if '_text' not in m:
            raise Skip('metadata')
        return S.ask(op=op, p=p.i, meta=m['_text'])

    def c_SectionBlock_parse(self, m, p, ws):
        r = self.metaop('section', m, p)
        ws += r[1]
        if r[0]:
            r[0]['item'] = r[0]['item']['0']
        return r[0]

    def c_CompoundDelimitedBlock_parse(self, m, p):
        r = self.metaop('compound', m, p)
        if r:
            r['item']['item'] = r['item']['item']['0']
        return r

    def c_RawDelimitedBlock_parse(self, m, p):
        r = self.metaop('raw', m, p)
        if r:
            r['item']['item'] = r['item']['item']['0']
        return r

    def c_MediaBlock_parse(self, m, p):
        r = self.metaop('media', m, p)
        if r:
            r['item']['item'] = r['item']['item']['0']
            return r
        return {'$': 'MatchAndWarnings', 'item': None}

    def c_Break_parse(self, m, p):
        r = self.metaop('break', m, p)
        if r:
            r['item'] = r['item']['0']
        return r

    def c_SimpleBlock_parse(self, m, p):
        r = self.metaop('simple', m, p)
        if r:
            r['item'] = r['item']['0']
        return r

    def c_Attribute_parse(self, s, p):
        return S.ask(op='attribute', p=p.i, span=s)

    def c_Attrlist_parse(self, s, p, ctx):
        return S.ask(op='attrlist', p=p.i, span=s, ctx=ctx['$'])

    def c_ElementAttribute_parse(self, s, i, p, sh, ctx):
        b = s.encode()
        r = S.ask(op='elem', p=p.i, text=b[i:].decode(), sh=sh['0'], ctx=ctx['$'])
        return (r[0], r[1] + i, r[2])

    def c_Header_parse(self, s, p):
        return S.ask(op='header', p=p.i, span=s)

    def c_AuthorLine_parse(self, s, p):
        return S.ask(op='authors', p=p.i, span=s)

    def c_Author_parse(self, s, p):
        return S.ask(op='author', p=p.i, text=s)

    def c_RevisionLine_parse(self, s, p):
        return S.ask(op='revision', p=p.i, span=s)

    def c_preprocess(self, s, p):
        return tuple(S.ask(op='preprocess', p=p.i, text=s))

    def c_SubstitutionGroup_from_custom_string(self, g, s):
        r = S.ask(op='custom', start=g, text=s)
        if r:
            r['_of'] = 'SubstitutionGroup'
        return r

    # methods

    def e_method(self, a, f, args):
        o = self.ev(a)
        x = [self.ev(y) for y in args]
        if isinstance(o, P):
            return self.parser(o, f, x)
        if f in ('clone', 'to_owned', 'to_string', 'into', 'as_ref', 'as_str', 'into_boxed_str', 'as_deref', 'borrow',
                 'cloned', 'copied', 'as_slice', 'to_vec', 'deref', 'into_string', 'as_mut', 'unwrap_or_default') and not x:
            if isinstance(o, dict) and f == 'to_string':
                if o.get('$') == 'SectionNumber':
                    return S.ask(op='display', num=o)
                raise Skip('to_string')
            if o is None and f == 'unwrap_or_default':
                raise Skip('default')
            return dict(o) if isinstance(o, dict) and f == 'clone' else o
        if f in ('unwrap', 'expect'):
            if o is None:
                raise Panic('unwrap')
            return o
        if f == 'is_none':
            return o is None
        if f == 'is_some':
            return o is not None
        if f == 'map' and not isinstance(o, It):
            return None if o is None else x[0](o)
        if f == 'unwrap_or':
            return x[0] if o is None else o
        if f == 'unwrap_if_no_warnings':
            if 'warnings' not in o:
                raise Skip('warnings of media macro')
            if o['warnings']:
                raise Panic('warnings')
            return o['item']
        if isinstance(o, str):
            return self.string(o, f, x)
        if isinstance(o, (list, It, tuple)):
            return self.seq(o, f, x)
        if isinstance(o, dict):
            return self.record(o, f, x)
        raise Skip(f'method {f}')

    def parser(self, p, f, x):
        if f == 'parse':
            d = S.ask(op='parse', p=p.i, text=x[0])
            return d
        if f == 'with_intrinsic_attribute' or f == 'with_intrinsic_attribute_bool':
            return P(S.ask(op='attr', p=p.i, name=x[0], value=x[1], ctx=x[2]['$']))
        if f == 'with_primary_file_name':
            return P(S.ask(op='primary', p=p.i, name=x[0]))
        if f == 'with_include_file_handler':
            if not isinstance(x[0], dict) or '$' in x[0]:
                raise Skip('include handler')
            return P(S.ask(op='includes', p=p.i, map=x[0]))
        if f == 'attribute_value':
            return S.ask(op='value', p=p.i, name=x[0])
        if f == 'has_attribute':
            return S.ask(op='has', p=p.i, name=x[0])
        if f == 'is_attribute_set':
            return S.ask(op='isset', p=p.i, name=x[0])
        if f == 'clone':
            return P(S.ask(op='clone', p=p.i))
        raise Skip(f'parser.{f}')

    def string(self, s, f, x):
        if f == 'is_empty':
            return s == ''
        if f == 'len':
            return len(s.encode())
        if f == 'contains':
            return x[0] in s
        if f == 'starts_with':
            return s.startswith(x[0])
        if f == 'ends_with':
            return s.endswith(x[0])
        if f == 'trim':
            return s.strip()
        raise Skip(f'str.{f}')

    def seq(self, o, f, x):
        if isinstance(o, It) and f == 'next':
            if o.k < len(o.l):
                o.k += 1
                return o.l[o.k - 1]
            return None
        l = o.l[o.k:] if isinstance(o, It) else list(o)
        if f in ('iter', 'into_iter', 'iter_mut'):
            return It(l)
        if f == 'collect':
            return l
        if f in ('count', 'len'):
            return len(l)
        if f == 'is_empty':
            return not l
        if f == 'first':
            return l[0] if l else None
        if f == 'last':
            return l[-1] if l else None
        if f in ('get', 'nth') and isinstance(x[0], int):
            return l[x[0]] if x[0] < len(l) else None
        if f == 'map':
            return It([x[0](y) for y in l])
        if f == 'contains':
            return any(same(y, x[0]) for y in l)
        if f == 'any':
            return any(x[0](y) for y in l)
        if f == 'all':
            return all(x[0](y) for y in l)
        if f == 'filter':
            return It([y for y in l if x[0](y)])
        if f == 'find':
            return next((y for y in l if x[0](y)), None)
        raise Skip(f'seq.{f}')

    def record(self, o, f, x):
        t = o.get('$')
        if is_block(o):
            if f == 'id':
                return o['0']['_enum_id']
            return self.record(o['0'], f, x)
        if f == 'apply' and o.get('_of') in ('SubstitutionStep', 'SubstitutionGroup') and len(x) == 3:
            c, p, al = x
            if al is not None:
                al = al['item'] if 'item' in al else al
                al = al['source']['data']
            if o['_of'] == 'SubstitutionStep':
                c['rendered'] = S.ask(op='step', p=p.i, step=t, text=c['rendered'], attrlist=al)
            else:
                c['rendered'] = S.ask(op='group', p=p.i, group=o, text=c['rendered'], attrlist=al)
            return None
        if t == 'Span':
            if f == 'data':
                return o['data']
            if f in ('line', 'col', 'byte_offset'):
                return o['offset' if f == 'byte_offset' else f]
            if f == 'is_empty':
                return o['data'] == ''
            if f == 'len':
                return len(o['data'].encode())
            if f == 'span':
                return o
            q = dict(op='span', span=o, method=f)
            if x:
                q['arg'] = x[0]
                if callable(x[0]):
                    raise Skip(f'span.{f}')
            return S.ask(**q)
        if t == 'Content':
            if f == 'is_empty':
                return o['rendered'] == ''
            if f in ('rendered', 'original'):
                return o[f]
        if t == 'Attrlist' and f in ('nth_attribute', 'named_attribute', 'named_or_positional_attribute', 'has_option'):
            return S.ask(op='alq', al=o, method=f, name=x[0] if isinstance(x[0], str) else '',
                         n=x[-1] if isinstance(x[-1], int) else 0)
        if t == 'Document' and f == 'nested_blocks':
            return It(o['blocks'])
        if t == 'Document' and f == 'span':
            return o['source']
        if t == 'Document' and f in ('doctitle', 'title') and f not in o:
            return o['header']['title']
        if '_blocks' in o and f == 'nested_blocks':
            return It(o['_blocks'])
        if f == 'has_option' and '_options' in o:
            return x[0] in o['_options']
        if f == 'child_blocks':
            raise Skip(f)
        if not x:
            if f == 'context' and '_resolved_context' in o:
                raise Skip('context')
            if t == 'SectionBlock' and f == 'section_title':
                return o['section_title']['rendered']
            if t == 'SectionBlock' and f == 'section_title_source':
                return o['section_title']['original']
            if '_' + f in o:
                return o['_' + f]
            if f == 'span' and 'source' in o:
                return o['source']
            if f in ('type', 'type_') and 'type_' in o:
                return o['type_']
            if f in o:
                v = o[f]
                if f in ('warnings', 'attributes', 'authors', 'comments') and isinstance(v, list):
                    return It(v) if f in ('warnings', 'attributes', 'authors', 'comments') else v
                return v
        if f == 'as_maybe_str' and t in ('Value', 'Set', 'Unset'):
            return o['0'] if t == 'Value' else None
        if t == 'Catalog' and f in ('contains_id', 'get_ref', 'resolve_id', 'len', 'is_empty'):
            return S.ask(op='catq', cat=cat(o), method=f, name=x[0] if x else '')
        if t == 'Catalog' and f == 'register_ref':
            r = S.ask(op='register', cat=cat(o), id=x[0], reftext=x[1], type=x[2]['$'])
            if r is None:
                return {'$': 'Err', '0': tag('DuplicateIdError', x[0])}
            o.update(r)
            return {'$': 'Ok', '0': ()}
        if t == 'Catalog' and f == 'generate_and_register_unique_id':
            r = S.ask(op='generate', cat=cat(o), id=x[0], reftext=x[1], type=x[2]['$'])
            o.update(r[0])
            return r[1]
        if t in ('Ok', 'Err') and f in ('is_ok', 'is_err'):
            return f == 'is_' + t.lower()
        if t == 'Err' and f == 'unwrap_err':
            return o['0']
        if t == 'SourceMap':
            if f == 'append':
                o['0'] = o['0'] + [[x[0], x[1]]]
                return None
            if f == 'original_file_and_line':
                return S.ask(op='origin', map=o['0'], n=x[0])
        if t == 'PathResolver':
            if f == 'posixify':
                return S.ask(op='posixify', sep=o['file_separator'], text=x[0])
            if f == 'web_path':
                return S.ask(op='webpath', sep=o['file_separator'], text=x[0], start=x[1])
        if t == 'SectionNumber' and f == 'assign_next_number':
            r = S.ask(op='assign', num=o, n=x[0])
            o.update(r)
            return None
        if t == 'Passthroughs' and f == 'restore_to':
            x[0]['rendered'] = S.ask(op='restore', p=x[1].i, text=x[0]['rendered'], **{'pass': o['0']})
            return None
        if False:
            if f == 'get_ref':
                return o['refs'].get(x[0])
            if f == 'contains_id':
                return x[0] in o['refs']
            if f == 'resolve_id':
                return o['reftext_to_id'].get(x[0])
            if f == 'is_empty':
                return not o['refs']
            if f == 'len':
                return len(o['refs'])
        raise Skip(f'{t}.{f}')

    # statements

    def run(self, toks, rep, where):
        i, last = 0, None
        while i < len(toks):
            # one statement: up to ; at depth 0, or a {} block that starts with if/for/…
            j, start = i, i
            brace = toks[i][:2] in (('id', 'for'), ('id', 'if'), ('id', 'while'), ('id', 'match'), ('id', 'fn'),
                                    ('id', 'struct'), ('id', 'impl'), ('id', 'loop'), ('op', '{'), ('id', 'enum'), ('op', '#'))
            while j < len(toks):
                k, v, _ = toks[j]
                if k == 'op' and v in '([{':
                    j = close(toks, j)
                    if brace and v == '{' and not (j + 1 < len(toks) and toks[j + 1][:2] == ('id', 'else')):
                        j += 1
                        break
                elif k == 'op' and v == ';':
                    break
                j += 1
            stmt = toks[i:j]
            i = j + 1 if j < len(toks) and toks[j][:2] == ('op', ';') else max(j, i + 1)
            if not stmt:
                continue
            last = self.stmt(stmt, rep, where, brace)
        return last

    def stmt(self, s, rep, where, brace):
        if s[0][:2] == ('id', 'use'):
            return
        if s[0][:2] in (('id', 'let'), ('id', 'const')):
            names = []
            try:
                p = Parse(s[1:])
                if p.peek() == ('id', 'mut'):
                    p.take()
                j = p.i
                try:
                    pat = p.pattern()
                except Skip:
                    names = [t[1] for t in s if t[0] == 'id']
                    raise
                names = flat(pat)
                if p.eat(':'):
                    d = 0
                    while not (p.op('=') and d == 0):
                        v = p.take()[1]
                        d += (v in '(<[') - (v in ')>]')
                p.need('=')
                e = p.expr()
                if not p.done() and p.peek() != ('id', 'else'):
                    raise Skip('let')
                self.bind(pat, self.ev(e))
            except (Skip, Panic, KeyError, TypeError, IndexError, AttributeError) as ex:
                for n in names:
                    self.v.pop(n, None)
                rep.note(where, f'let {names}: {type(ex).__name__} {ex}')
                if isinstance(ex, Panic):
                    raise
            return
        if s[0][0] == 'id' and len(s) > 2 and s[1][:2] == ('op', '!'):
            n = s[0][1]
            if n == 'panic':
                raise Panic('panic!')
            if n in ('assert_eq', 'assert', 'assert_ne'):
                w = f'{where}'
                try:
                    p = Parse(s[3:-1])
                    a = p.args_all()
                    if n == 'assert':
                        v = self.ev(a[0])
                        if not isinstance(v, bool):
                            raise Skip('assert')
                        ok, why = v, 'assert!'
                        const = False
                    else:
                        l, r = self.ev(a[0]), self.ev(a[1])
                        ok = same(l, r)
                        why = '' if ok else diff(l, r)
                        if n == 'assert_ne':
                            ok = not ok
                    rep.add(w, ok, why, s)
                except (Skip, KeyError, TypeError, IndexError, AttributeError) as ex:
                    rep.skip(w, f'{type(ex).__name__} {ex}', s)
            return
        if s[0][:2] == ('id', 'if'):
            try:
                return self.branch(s, rep, where)
            except Skip:
                pass
        if brace:
            if any(t[0] == 'id' and t[1].startswith('assert') for t in s):
                rep.skip(where, f'statement {s[0][1]}', s, sum(t[0] == 'id' and t[1].startswith('assert') for t in s))
            return
        try:
            p = Parse(s)
            e = p.expr()
            if not p.done():
                if p.op('='):
                    raise Skip('assignment')
                raise Skip('statement')
            return self.ev(e)
        except (Skip, KeyError, TypeError, IndexError, AttributeError) as ex:
            # what the statement changes is no longer known
            for t in s:
                if t[0] == 'id' and t[1] in self.v:
                    self.v.pop(t[1])
            rep.note(where, f'statement: {type(ex).__name__} {ex}')


    def branch(self, s, rep, where):
        p = Parse(s[1:])
        old = dict(self.v)
        if p.peek() == ('id', 'let'):
            p.take()
            pat = p.pattern()
            p.need('=')
            v = self.ev(p.expr(nostruct=True))
            try:
                self.bind(pat, v)
                c = True
            except Mismatch:
                c = False
        else:
            c = self.ev(p.expr(nostruct=True))
        if not p.op('{') or not isinstance(c, bool):
            raise Skip('if')
        b = p.i
        e = close(p.t, b)
        if c:
            r = self.run(p.t[b + 1:e], rep, where)
            for k in list(self.v):
                if k not in old:
                    del self.v[k]
            return r
        self.v = old
        if e + 1 < len(p.t) and p.t[e + 1][:2] == ('id', 'else'):
            if p.t[e + 2][:2] == ('id', 'if'):
                return self.branch(p.t[e + 2:], rep, where)
            return self.run(p.t[e + 3:close(p.t, e + 2)], rep, where)


def args_all(self):
    out = []
    while not self.done():
        out.append(self.expr())
        if not self.eat(','):
            break
    if not self.done():
        raise Skip('arguments')
    return out


Parse.args_all = args_all


def flat(p):
    if isinstance(p, dict):
        p = p.get('args', []) + list(p.get('fields', {}).values())
    return sum((flat(q) for q in p), []) if isinstance(p, list) else [p]


class Report:
    def __init__(self):
        self.ok = self.bad = self.sk = 0
        self.bads, self.why = [], {}

    def add(self, w, ok, why, s):
        if ok:
            self.ok += 1
        else:
            self.bad += 1
            self.bads.append((w, why))

    def skip(self, w, why, s, n=1):
        self.sk += n
        self.why.setdefault(why, []).append(w)

    def note(self, w, why):
        self.why.setdefault('  ' + why, []).append(w)


def functions(src):
    """All (name, parameters, body tokens, is_test, should_panic)."""
    toks = tokenize(src)
    out = []
    i = 0
    while i < len(toks) - 2:
        if toks[i][:2] == ('id', 'fn') and toks[i + 1][0] == 'id':
            name = toks[i + 1][1]
            j = i + 2
            while toks[j][:2] != ('op', '('):
                j += 1
            pe = close(toks, j)
            params = toks[j + 1:pe]
            k = pe
            while k < len(toks) and toks[k][:2] not in (('op', '{'), ('op', ';')):
                k += 1
            if k < len(toks) and toks[k][1] == '{':
                e = close(toks, k)
                back = ''.join(str(t[1]) for t in toks[max(0, i - 16):i])
                back = back[max(back.rfind('}'), back.rfind(';')) + 1:]
                ps = [params[q][1] for q in range(len(params) - 1)
                      if params[q][0] == 'id' and params[q + 1][:2] == ('op', ':') and params[q][1] != 'self']
                out.append((name, ps, toks[k + 1:e], '#[test]' in back and '#[ignore]' not in back, 'should_panic' in back))
        i += 1
    return out


def main():
    global S
    verbose = '-v' in sys.argv
    shows = '-s' in sys.argv
    subs = [a for a in sys.argv[1:] if not a.startswith('-')]
    S = Server()
    total = Report()
    for root, _, fs in sorted(os.walk(REPO)):
        for f in sorted(fs):
            path = os.path.join(root, f)
            rel = os.path.relpath(path, REPO)
            if not f.endswith('.rs') or rel == 'strings.rs' or (subs and not any(s in rel for s in subs)):
                continue
            try:
                fns = functions(open(path, encoding='utf-8').read())
            except SyntaxError as ex:
                print('cannot read', rel, ex)
                continue
            helpers = {n: (ps, b) for n, ps, b, t, _ in fns if not t}
            rep = Report()
            for n, _, body, test, panics in fns:
                if not test:
                    continue
                w = f'{rel}:{n}'
                try:
                    Env(helpers).run(body, rep, w)
                    if panics:
                        rep.skip(w, 'panic expected', [])
                except Panic as ex:
                    if panics:
                        rep.ok += 1
                    else:
                        rep.add(w, False, f'panic {ex}', [])
            if verbose and (rep.ok or rep.bad or rep.sk):
                print(f'{rep.ok:5} {rep.bad:4} {rep.sk:5}  {rel}', flush=True)
            for b in rep.bads:
                print('  DIFFERS', *b, flush=True)
            total.ok += rep.ok
            total.bad += rep.bad
            total.sk += rep.sk
            for k, v in rep.why.items():
                total.why.setdefault(k, []).extend(v)
    if shows:
        for k, v in sorted(total.why.items(), key=lambda x: -len(x[1])):
            print(len(v), k, v[0])
    print(f'agrees {total.ok}, differs {total.bad}, skipped {total.sk}; {S.n} requests')


if __name__ == '__main__':
    main()
