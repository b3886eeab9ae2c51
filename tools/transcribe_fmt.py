#!/usr/bin/env python3
"""Translate the formatting functions of /repo/src/formatter/formatting.rs mechanically into the statements of
lean/Verif/Model/Formatter.lean, once for every kind of token and of subtree, and write a Lean file that
compares them with lean/Verif/Model/FormatterBodies.lean.

usage: transcribe_fmt.py /repo/src/formatter/formatting.rs lean/Verif/Model/Token.lean > /tmp/TranscribedFmt.lean
       cd lean && lake env lean /tmp/TranscribedFmt.lean      (prints the functions that differ)
"""
import re, sys

src = open(sys.argv[1]).read()
src = re.sub(r'//[^\n]*', '', src)
model = open(sys.argv[2]).read()
TOKS = re.findall(r'\.(\w+)', re.search(r'def Tok\.all : List Tok :=\s*\[(.*?)\]', model, re.S)[1])
SKS = re.findall(r'\.(\w+)', re.search(r'def SK\.all : List SK :=\s*\[(.*?)\]', model, re.S)[1])
REN = {'Type': 'TypeKw'}
def kname(k): return '.' + REN.get(k, k)

LEX = re.compile(r'\s*([A-Za-z_][A-Za-z_0-9]*!(?!=)|[A-Za-z_][A-Za-z_0-9]*|\d+|::|=>|==|!=|&&|\|\||->|.)', re.S)
def lex(s):
    out, i = [], 0
    s = s.rstrip()
    while i < len(s):
        m = LEX.match(s, i); out.append(m[1]); i = m.end()
    return out

class P:
    def __init__(self, toks): self.t, self.i = toks, 0
    def peek(self, n=0): return self.t[self.i+n] if self.i+n < len(self.t) else None
    def take(self, x=None):
        t = self.t[self.i]
        if x is not None and t != x: raise SyntaxError(f'expected {x} at {self.t[self.i-6:self.i+8]}')
        self.i += 1
        return t
    # expressions
    def expr(self): return self.binary(0)
    LEVELS = [('||',), ('&&',), ('==', '!=', '>'), ('-',)]
    def binary(self, l):
        if l == len(self.LEVELS): return self.unary()
        a = self.binary(l+1)
        while self.peek() in self.LEVELS[l]:
            op = self.take(); b = self.binary(l+1)
            a = ('bin', op, a, b)
        return a
    def unary(self):
        if self.peek() == '!': self.take(); return ('not', self.unary())
        if self.peek() == '&': self.take(); return self.unary()
        return self.postfix()
    def postfix(self):
        e = self.primary()
        while self.peek() in ('.', '('):
            if self.take() == '.':
                f = self.take()
                if self.peek() == '(':
                    self.take('('); e = ('meth', e, f, self.args())
                else: e = ('field', e, f)
            else: e = ('call', e, self.args())
        return e
    def args(self):
        out = []
        while self.peek() != ')':
            out.append(self.expr())
            if self.peek() == ',': self.take()
        self.take(')')
        return out
    def primary(self):
        t = self.peek()
        if t == '(':
            self.take(); e = self.expr(); self.take(')'); return e
        if t == '[':
            self.take(); out = []
            while self.peek() != ']':
                out.append(self.expr())
                if self.peek() == ',': self.take()
            self.take(']'); return ('list', out)
        if t == 'if': return self.ifx()
        if t == 'match': return self.match()
        if t == '{': return ('block', self.block())
        self.take()
        if t == 'unreachable!':
            self.take('('); self.take(')'); return ('unreachable',)
        if t.isdigit(): return ('int', int(t))
        path = [t]
        while self.peek() == '::':
            self.take(); path.append(self.take())
        return ('path', tuple(path))
    def pat(self):
        # (), Some(..), Child::Tree(x), SyntaxKind::X | .., _
        alts = []
        while True:
            if self.peek() == '(':
                self.take(); xs = []
                while self.peek() != ')':
                    xs.append(self.pat())
                    if self.peek() == ',': self.take()
                self.take(')'); alts.append(('tuple', xs))
            else:
                path = [self.take()]
                while self.peek() == '::':
                    self.take(); path.append(self.take())
                if self.peek() == '(':
                    self.take(); xs = []
                    while self.peek() != ')':
                        xs.append(self.pat())
                        if self.peek() == ',': self.take()
                    self.take(')')
                    alts.append(('con', tuple(path), xs))
                else: alts.append(('con', tuple(path), None))
            if self.peek() == '|': self.take()
            else: break
        return alts[0] if len(alts) == 1 else ('alt', alts)
    def nostruct(self): return self.expr()
    def ifx(self):
        self.take('if')
        if self.peek() == 'let':
            self.take(); p = self.pat(); self.take('='); e = self.expr(); a = self.block()
            c = ('let', p, e)
        else:
            c = self.expr(); a = self.block()
        b = []
        if self.peek() == 'else':
            self.take()
            b = [self.ifx()] if self.peek() == 'if' else self.block()
        return ('if', c, a, b)
    def match(self):
        self.take('match'); e = self.expr(); self.take('{'); arms = []
        while self.peek() != '}':
            p = self.pat(); self.take('=>')
            s = self.block() if self.peek() == '{' else [self.stmt_noterm()]
            if self.peek() == ',': self.take()
            arms.append((p, s))
        self.take('}')
        return ('match', e, arms)
    def block(self):
        self.take('{'); out = []
        while self.peek() != '}': out.append(self.stmt())
        self.take('}')
        return out
    def stmt_noterm(self):
        # assignment or expression
        if self.peek(1) == '=' and re.match(r'\w+$', self.peek()):
            v = self.take(); self.take('='); return ('assign', v, self.expr())
        return self.expr()
    def stmt(self):
        t = self.peek()
        if t == 'let':
            self.take()
            if self.peek() == 'mut': self.take()
            v = self.take(); self.take('='); e = self.expr(); self.take(';')
            return ('letv', v, e)
        if t == 'for':
            self.take(); p = self.pat(); self.take('in'); e = self.expr()
            return ('for', p, e, self.block())
        if t == 'while':
            self.take(); self.take('let'); p = self.pat(); self.take('='); e = self.expr()
            return ('whilelet', p, e, self.block())
        s = self.stmt_noterm()
        if self.peek() == ';': self.take()
        return s

# functions and their parameters after `f` and `tree`
fns, order = {}, []
for m in re.finditer(r'^fn (\w+)\((.*?)\)( -> bool)? \{\n(.*?)^\}', src, re.S | re.M):
    ps = [x.strip() for x in m[2].split(',') if x.strip()]
    assert ps[0] == 'f: &mut Formatter' and ps[1] == 'tree: Tree', m[1]
    ps = [re.sub(r'^mut ', '', x) for x in ps[2:]]
    assert all(x.endswith(': bool') for x in ps)
    p = P(lex('{' + m[4] + '}'))
    fns[m[1]] = ([x[:-6] for x in ps], p.block(), bool(m[3]))
    assert p.i == len(p.t)
disp = re.search(r'match tree\.kind \{(.*?)\n    \}\n    f\.markers', src, re.S)[1]
fn2kind = {f: k for k, f in re.findall(r'SyntaxKind::(\w+) => (?:\{\s*)?(?:_ = )?(\w+)\(&mut f, tree', disp)}
# the arguments in `format`: all false
for call in re.findall(r'(\w+)\(&mut f, tree((?:, \w+)*)\)', disp):
    assert call[1] == ', false' * len(fns[call[0]][0]), call
assert set(fn2kind) == set(fns), set(fn2kind) ^ set(fns)

def seq(ss): return '(fblk [' + ', '.join(ss) + '])'
T, F = ('const', True), ('const', False)

class Emit:
    """one arm, for a token of kind `tok` or a subtree of kind `sk` (or neither, before and after the loop)"""
    def __init__(self, env, tok=None, sk=None):
        self.env, self.tok, self.sk = dict(env), tok, sk
    # roles of tree variables: 'fn', 'cur', 'next'; of token variables: 'cur', 'next'
    def role(self, e):
        assert e[0] == 'path' and len(e[1]) == 1, e
        return self.env[e[1][0]]
    def target(self, e):
        if e[0] == 'meth' and e[2] == 'start':
            r = self.role(e[1])
            assert r in (('tree', 'cur'), ('tree', 'next')), r
            return '.' + r[1]
        r = self.role(e)
        assert r[0] == 'token', (e, r)
        return '.' + r[1]
    def static_kind(self, e):
        """the kind denoted by an expression, if it is the kind of the current child"""
        if e[0] == 'path' and len(e[1]) == 1 and self.env.get(e[1][0]) == ('kind', 'cur'):
            return self.tok if self.tok is not None else self.sk
        if e[0] == 'field' and e[2] == 'kind' and e[1][0] == 'path' and self.env.get(e[1][1][0]) in (('token', 'cur'), ('tree', 'cur')):
            return self.tok if self.env[e[1][1][0]][0] == 'token' else self.sk
        return None
    def cond(self, e):
        """('const', b) or a Lean term"""
        if e[0] == 'not':
            c = self.cond(e[1])
            return ('const', not c[1]) if isinstance(c, tuple) else f'(.not {c})'
        if e[0] == 'bin' and e[1] in ('&&', '||'):
            a, b = self.cond(e[2]), self.cond(e[3])
            unit = e[1] == '&&'
            if isinstance(a, tuple): return b if a[1] == unit else a
            if isinstance(b, tuple):
                # the left operand has no effect
                return a if b[1] == unit else b
            return f'(.{"and" if unit else "or"} {a} {b})'
        if e == ('path', ('false',)): return F
        if e == ('path', ('true',)): return T
        if e[0] == 'path' and len(e[1]) == 1:
            v = self.env[e[1][0]]
            if v[0] == 'reg': return f'(.reg .{v[1]})'
            raise SyntaxError(e)
        if e[0] == 'bin' and e[1] in ('==', '!='):
            a, b = e[2], e[3]
            k = self.static_kind(a)
            if k is not None:
                assert e[1] == '==' and b[0] == 'path' and b[1][0] in ('ModelicaToken', 'SyntaxKind'), e
                return ('const', REN.get(b[1][1], b[1][1]) == k)
            if a == ('field', ('path', ('f',)), 'prev_tok'):
                c = f'(.prevTok {kname(b[1][1])})'
                return c if e[1] == '==' else f'(.not {c})'
            if a[0] == 'field' and a[2] == 'kind' and a[1][0] == 'meth' and a[1][2] == 'start':
                assert self.role(a[1][1]) == ('tree', 'cur') and e[1] == '=='
                return f'(.curStartIs {kname(b[1][1])})'
            n = self.length(a)
            if n is not None:
                assert b[0] == 'int' and e[1] == '=='
                if n == 'fn': return f'(.lenEq {b[1]})'
                assert b[1] == 0
                return '.curEmpty'
            if a == ('path', ('idx',)):
                assert self.env['idx'] == ('idx',)
                return f'(.idxEq {b[1]})'
            raise SyntaxError(e)
        if e[0] == 'bin' and e[1] == '>':
            a, b = e[2], e[3]
            n = self.length(a)
            if n is not None:
                assert n == 'fn'
                return f'(.lenGt {b[1]})'
            if a == ('path', ('idx',)):
                assert self.env['idx'] == ('idx',)
                return f'(.idxGt {b[1]})'
            if a[0] == 'field' and a[2] == 'idx':
                assert self.role(a[1]) == ('token', 'cur') and b == ('int', 0)
                return '.tokIdxPos'
            if a[0] == 'field' and a[2] == 'line':
                assert a[1][0] == 'field' and a[1][2] == 'start' and a[1][1][0] == 'meth' and a[1][1][2] == 'start'
                assert self.role(a[1][1][1]) == ('tree', 'next')
                assert b == ('field', ('path', ('f',)), 'prev_line')
                return '.nextBelow'
            raise SyntaxError(e)
        if e[0] == 'meth' and e[2] == 'is_multiline':
            return {'fn': '.treeMulti', 'cur': '.curMulti'}[self.role(e[1])[1]]
        if e[0] == 'meth' and e[2] == 'contains':
            if e[1][0] == 'list':
                xs = [x[1][1] for x in e[1][1]]
                k = self.static_kind(e[3][0])
                if k is not None: return ('const', k in [REN.get(x, x) for x in xs])
                assert e[3][0] == ('path', ('prev_rule',))
                return '(.prevRuleIn [' + ', '.join(kname(x) for x in xs) + '])'
            return f'(.{ {"fn": "treeHas", "cur": "curHas"}[self.role(e[1])[1]] } .{e[3][0][1][1]})'
        raise SyntaxError(e)
    def length(self, e):
        if e[0] == 'path' and len(e[1]) == 1 and self.env.get(e[1][0], ('',))[0] == 'count': return 'fn'
        if e[0] == 'meth' and e[2] == 'len':
            t = e[1]
            if t[0] == 'field' and t[2] == 'children': t = t[1]
            return self.role(t)[1]
        return None
    def term(self, c): return {True: '(.not .false)', False: '.false'}[c[1]] if isinstance(c, tuple) else c
    def ite(self, c, a, b):
        if isinstance(c, tuple): return a() if c[1] else b()
        return f'(.ite {c} {a()} {b()})'
    def sub(self): return Emit(self.env, self.tok, self.sk)
    def stmts(self, ss):
        e = self.sub()
        return seq([x for s in ss for x in [e.stmt(s)] if x is not None])
    def bind(self, p, role):
        assert p[0] == 'con' and len(p[1]) == 1, p
        self.env[p[1][0]] = role
    def callfn(self, e, keep):
        assert e[0] == 'call' and e[1][0] == 'path', e
        fn = e[1][1][0]
        args = e[2]
        assert args[0] == ('path', ('f',)) and self.role(args[1]) == ('tree', 'cur'), e
        ps = fns[fn][0]
        assert len(ps) == len(args) - 2
        m = {'is_multiline': '.false', 'wrapped': '.false', 'in_oel': '.false'}
        for n, a in zip(ps, args[2:]): m[n] = self.term(self.cond(a))
        return f'(.call .{fn2kind[fn]} {m["is_multiline"]} {m["wrapped"]} {m["in_oel"]} {"true" if keep else "false"})'
    def stmt(self, s):
        k = s[0]
        if k == 'unreachable': return '.unreachable'
        if k == 'block': return self.stmts(s[1])
        if k == 'letv':
            v, e = s[1], s[2]
            if v == 'children': return None          # an iterator over the children
            if v == 'kind':
                assert e[0] == 'field' and e[2] == 'kind' and self.role(e[1])[1] == 'cur'
                self.env['kind'] = ('kind', 'cur'); return None
            if v == 'children_count':
                assert self.length(e) == 'fn'
                self.env[v] = ('count',); return None
            if v == 'prev_rule':
                assert e == ('path', ('SyntaxKind', 'Error'))
                return None
            c = self.term(self.cond(e))
            inloop = self.tok is not None or self.sk is not None
            r = 'x' if inloop else {'is_multiline': 'm', 'conditional': 'c'}[v]
            self.env[v] = ('reg', r)
            return f'(.set .{r} {c})'
        if k == 'assign':
            v, e = s[1], s[2]
            if v == '_': return self.callfn(e, False)
            if v == 'prev_rule':
                assert self.static_kind(e) is not None
                return '.setPrevRule'
            if e[0] == 'call':
                assert v == 'wrapped' and self.env[v] == ('reg', 'w')
                return self.callfn(e, True)
            return f'(.set .{self.env[v][1]} {self.term(self.cond(e))})'
        if k == 'if':
            c = s[1]
            if c[0] == 'let':
                p, e = c[1], c[2]
                if e == ('path', ('child',)):
                    return self.arm([(p, s[2]), (('con', ('_',), None), s[3])])
                peek = ('meth', ('path', ('children',)), 'peek', [])
                sub = self.sub()
                if e == ('meth', peek, 'unwrap', []):
                    assert p[1] == ('Child', 'Tree')
                    sub.bind(p[2][0], ('tree', 'next'))
                    test = '.nextTreeU'
                else:
                    assert e == peek and p[1] == ('Some',)
                    q = p[2][0]
                    if q[0] == 'tuple':
                        assert q[1][0] == ('con', ('_',), None); q = q[1][1]
                    if q[1] == ('Child', 'Tree'):
                        sub.bind(q[2][0], ('tree', 'next')); test = '.nextTree'
                    else:
                        assert q[1] == ('Child', 'Token')
                        sub.bind(q[2][0], ('token', 'next')); test = '.nextTok'
                return f'(.ite {test} {sub.stmts(s[2])} {self.stmts(s[3])})'
            return self.ite(self.cond(c), lambda: self.stmts(s[2]), lambda: self.stmts(s[3]))
        if k == 'match':
            e = s[1]
            if e == ('path', ('child',)): return self.arm(s[2])
            kind = self.static_kind(e)
            assert kind is not None, s
            for p, b in s[2]:
                ps = p[1] if p[0] == 'alt' else [p]
                if any(q[1] == ('_',) or REN.get(q[1][1], q[1][1]) == kind for q in ps): return self.stmts(b)
            raise SyntaxError('no arm')
        if k == 'meth':
            o, f, a = s[1], s[2], s[3]
            if o == ('field', ('path', ('f',)), 'markers') and f == 'push':
                return {'Space': '.space', 'Indent': '.indent', 'Dedent': '.dedent'}[a[0][1][1]]
            assert o == ('path', ('f',)), s
            if f == 'handle_token':
                assert self.role(a[0]) == ('token', 'cur')
                return '.tok'
            if f == 'handle_break':
                t = self.target(a[0])
                if a[1][0] == 'if':
                    one = lambda b: f'(.brk {t} .{b[0][1][1]})'
                    return self.ite(self.cond(a[1][1]), lambda: one(a[1][2]), lambda: one(a[1][3]))
                assert a[1][1][0] == 'Blank'
                return f'(.brk {t} .{a[1][1][1]})'
            if f == 'break_or_space':
                return f'(.bos {self.term(self.cond(a[0]))} {self.target(a[1])})'
            raise SyntaxError(s)
        if k == 'call': return self.callfn(s, False)
        raise SyntaxError(s)
    def arm(self, arms):
        want = ('Child', 'Token') if self.tok is not None else ('Child', 'Tree')
        for p, b in arms:
            if p[1] == ('_',): return self.stmts(b)
            assert p[0] == 'con'
            if p[1] == want:
                self.bind(p[2][0], ('token', 'cur') if self.tok is not None else ('tree', 'cur'))
                return self.stmts(b)
        raise SyntaxError('no arm')

def scan(s):
    """the search for a pair of brackets, e.g. formatting.rs:320-334"""
    def tk(pat): return pat[2][0][1][0]
    assert s[1] == ('con', ('Some',), [('con', ('child',), None)])
    (i,) = s[3]
    assert i[0] == 'if' and i[1][0] == 'let' and i[1][2] == ('path', ('child',)) and i[1][1][1] == ('Child', 'Token') and i[3] == []
    tok1 = tk(i[1][1])
    (j,) = i[2]
    assert j[0] == 'if' and j[1][:2] == ('bin', '==') and j[1][2] == ('field', ('path', (tok1,)), 'kind') and j[3] == []
    op = j[1][3][1][1]
    (l,) = j[2]
    assert l[0] == 'for' and l[1] == ('con', ('child',), None) and l[2] == ('meth', ('path', ('children',)), 'by_ref', [])
    (n,) = l[3]
    assert n[0] == 'if' and n[1][0] == 'let' and n[1][2] == ('path', ('child',)) and n[1][1][1] == ('Child', 'Token') and n[3] == []
    tok2 = tk(n[1][1])
    (o,) = n[2]
    assert o[0] == 'if' and o[1][:2] == ('bin', '==') and o[1][2] == ('field', ('path', (tok2,)), 'kind') and o[3] == []
    cl = o[1][3][1][1]
    line = lambda t: ('field', ('field', ('path', (t,)), 'start'), 'line')
    assert o[2] == [('assign', 'is_multiline', ('bin', '>', line(tok2), line(tok1)))]
    return f'(.set .m (.parenMulti {kname(op)} {kname(cl)}))'

CH = ('field', ('path', ('tree',)), 'children')
INTO = ('meth', CH, 'into_iter', [])
defs, checks = [], []
for fn, (params, body, ret) in fns.items():
    kind = fn2kind[fn]
    env = {'tree': ('tree', 'fn')}
    for p in params: env[p] = ('reg', {'is_multiline': 'm', 'wrapped': 'w', 'in_oel': 'o'}[p])
    pre, post, loop, iters = [], [], None, None
    e0 = Emit(env)
    if ret:
        assert body[-1] == ('path', ('wrapped',)), fn
        body = body[:-1]
    for s in body:
        if s[0] == 'letv' and s[1] == 'children': iters = s[2]; continue
        if s[0] == 'whilelet' and iters == ('meth', CH, 'iter', []):
            assert loop is None and s[2] == ('meth', ('path', ('children',)), 'next', [])
            pre.append(scan(s)); continue
        if s[0] in ('for', 'whilelet'):
            assert loop is None, fn
            loop = s
            if s[0] == 'for':
                assert s[2] in (CH, ('meth', INTO, 'enumerate', [])), s[2]
                pat = s[1]
            else:
                assert s[2] == ('meth', ('path', ('children',)), 'next', []) and s[1][1] == ('Some',)
                assert iters in (('meth', INTO, 'peekable', []), ('meth', ('meth', INTO, 'enumerate', []), 'peekable', [])), iters
                pat = s[1][2][0]
            if pat[0] == 'tuple':
                assert pat[1] == [('con', ('idx',), None), ('con', ('child',), None)]
                e0.env['idx'] = ('idx',)
            else: assert pat == ('con', ('child',), None)
            continue
        x = e0.stmt(s)
        if x is not None: (pre if loop is None else post).append(x)
    assert loop is not None, fn
    env = e0.env
    onTok, onTree = {}, {}
    for t in TOKS: onTok.setdefault(Emit(env, tok=t).stmts(loop[3]), []).append(t)
    for k in SKS: onTree.setdefault(Emit(env, sk=k).stmts(loop[3]), []).append(k)
    tab = lambda d: '[' + ',\n  '.join('([' + ', '.join('.' + k for k in ks) + '], ' + c + ')' for c, ks in d.items()) + ']'
    defs.append(f'def t{kind} : T where\n pre := {seq(pre)}\n post := {seq(post)}\n onTok := {tab(onTok)}\n onTree := {tab(onTree)}')
    checks.append(kind)

print('''import Verif.Model.FormatterBodies
namespace Mofmt
namespace Transcribed
structure T where
  pre : FCmd
  post : FCmd
  onTok : List (List Tok × FCmd)
  onTree : List (List SK × FCmd)
/-- sequences to the right, without `skip` -/
def cat : FCmd → FCmd → FCmd
  | .skip, c => c
  | .seq a b, c => .seq a (cat b c)
  | a, .skip => a
  | a, c => .seq a c
/-- `||` and `&&` to the right -/
def orC : FCond → FCond → FCond
  | .or a b, c => .or a (orC b c)
  | a, c => .or a c
def andC : FCond → FCond → FCond
  | .and a b, c => .and a (andC b c)
  | a, c => .and a c
def normC : FCond → FCond
  | .or a b => orC (normC a) (normC b)
  | .and a b => andC (normC a) (normC b)
  | .not a => .not (normC a)
  | c => c
def norm : FCmd → FCmd
  | .seq a b => cat (norm a) (norm b)
  | .ite c a b => .ite (normC c) (norm a) (norm b)
  | .set r c => .set r (normC c)
  | .bos c t => .bos (normC c) t
  | .call k m w o b => .call k (normC m) (normC w) (normC o) b
  | c => c
/-- the initial values `false` before the loop are those of the registers -/
def noInit : FCmd → FCmd
  | .seq (.set r .false) b => if r = .m ∨ r = .c then noInit b else .seq (.set r .false) b
  | .seq a b => cat a (noInit b)
  | .set .m .false | .set .c .false => .skip
  | c => c
def same (k : SK) (t : T) : List String :=
  let b := Fmt.body k
  (if noInit (norm b.pre) == noInit (norm t.pre) then [] else ["pre"]) ++
  (if norm b.post == norm t.post then [] else ["post"]) ++
  (t.onTok.flatMap fun (ks, c) => ks.filterMap fun x => if norm (b.onTok x) == norm c then none else some s!"token {reprStr x}") ++
  (t.onTree.flatMap fun (ks, c) => ks.filterMap fun x => if norm (b.onTree x) == norm c then none else some s!"tree {reprStr x}")
''')
for d in defs: print(d)
for k in checks: print(f'#eval match same .{k} t{k} with | [] => "" | l => "DIFFERENT {k}: " ++ ", ".intercalate l')
print(f'#eval "{len(checks)} functions"')
print('end Transcribed\nend Mofmt')
