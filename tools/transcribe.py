#!/usr/bin/env python3
"""Translate the grammar functions of /repo/src/parser/parsing.rs mechanically into the statements of
lean/Verif/Model/Parser.lean and write a Lean file that compares them with lean/Verif/Model/Grammar.lean.

usage: transcribe.py /repo/src/parser/parsing.rs > /tmp/Transcribed.lean
       cd lean && lake env lean /tmp/Transcribed.lean      (prints the kinds that differ)
"""
import re, sys

src = open(sys.argv[1]).read().split('#[cfg(test)]')[0]
src = re.sub(r'//[^\n]*', '', src)
TOK = re.compile(r'\s*("(?:[^"\\]|\\.)*"|[A-Za-z_][A-Za-z_0-9]*!?(?!=)|[A-Za-z_][A-Za-z_0-9]*|\d+|::|=>|==|!=|&&|\|\||->|.)', re.S)

def lex(s):
    out, i = [], 0
    s = s.rstrip()
    while i < len(s):
        m = TOK.match(s, i)
        out.append(m[1]); i = m.end()
    return out

toks = lex(src)
pos = 0
def peek(n=0): return toks[pos+n] if pos+n < len(toks) else None
def take(x=None):
    global pos
    t = toks[pos]
    if x is not None and t != x: raise SyntaxError(f'expected {x}, found {toks[pos-5:pos+10]}')
    pos += 1
    return t

consts = {}
for m in re.finditer(r'const (\w+): \[ModelicaToken; (\d+)\] = \[(.*?)\];', src, re.S):
    ks = re.findall(r'ModelicaToken::(\w+)', m[3])
    assert len(ks) == int(m[2])
    consts[m[1]] = ks

REN = {'Type': 'TypeKw'}
def kname(k): return '.' + REN.get(k, k)
def kind():
    take('ModelicaToken'); take('::')
    return take()
def klist(ks): return '[' + ', '.join(kname(k) for k in ks) + ']'

# the function for every kind of syntax node: parsing.rs `match start { SyntaxKind::X => x(self), .. }`
fn2kind = {f: k for k, f in re.findall(r'SyntaxKind::(\w+) => (?:{\s*)?(\w+)\(self\)', src)}

def fmtstr(lit):
    s = lit[1:-1]
    assert s.count('{:?}') == 1, s
    a, b = s.split('{:?}')
    f = lambda x: 'c!"' + x.replace('{{', '{').replace('}}', '}') + '"'
    return f(a), f(b)

def nth():
    take('p'); take('.'); take('nth'); take('(')
    n = take(); take(')')
    return n

def atom():
    if peek() == '!':
        take('!'); return f'(.not {atom()})'
    if peek() == '(':
        take('('); c = cond(); take(')'); return c
    assert peek() == 'p', toks[pos-5:pos+10]
    m = peek(2)
    if m == 'nth':
        n = nth(); op = take(); k = kind()
        c = f'(.nthIs {n} {kname(k)})'
        assert op in ('==', '!=')
        return c if op == '==' else f'(.not {c})'
    take('p'); take('.'); take(); take('(')
    if m == 'eof':
        take(')'); return '.eof'
    if m in ('check', 'consume'):
        k = kind(); take(')')
        return f'(.{m} {kname(k)})'
    assert m == 'check_any', m
    take('&')
    if peek() == '[':
        take('['); ks = []
        while peek() != ']':
            ks.append(kind())
            if peek() == ',': take(',')
        take(']')
    else:
        ks = consts[take()]
    take(')')
    return f'(.checkAny {klist(ks)})'

def cond():
    a = atom()
    while peek() in ('&&', '||', '&'):
        op = take()
        b = atom()
        # `&` does not short-circuit; its right operand here is always `!p.eof()`, which has no effect
        if op == '&': assert b == '(.not .eof)'
        a = f'(.{"or" if op == "||" else "and"} {a} {b})'
    return a

def block():
    take('{'); out = []
    while peek() != '}':
        s = stmt()
        if s is not None: out.append(s)
    take('}')
    return out

def blk(ss): return '(blk [' + ', '.join(ss) + '])'

def match():
    n = nth() if peek() == 'p' and peek(1) == '.' else VARS[take()]
    take('{'); arms = []
    while peek() != '}':
        if peek() == '_':
            take('_'); ks = None
        else:
            ks = [kind()]
            while peek() == '|':
                take('|'); ks.append(kind())
        take('=>')
        if peek() == '{': body = block()
        else: body = [stmt_expr()]
        if peek() == ',': take(',')
        arms.append((ks, body))
    take('}')
    assert arms[-1][0] is None
    t = blk(arms[-1][1])
    for ks, b in reversed(arms[:-1]):
        t = f'(.ifk {klist(ks)} {blk(b)} {t})'
    return n, t

VARS = {}
def stmt_expr():
    """an expression in statement position, without the semicolon"""
    if peek() == 'match':
        take('match')
        direct = peek() == 'p'
        n, t = match()
        # `let k = p.nth(0); match k` was emitted as `look` at the `let`
        return blk([f'.look {n}', t]) if direct else t
    if peek() == 'p' and peek(1) == '.':
        m = peek(2)
        if m in ('check', 'check_any', 'nth', 'eof'): raise SyntaxError('unused test')
        if m == 'consume': return f'.eval {atom()}'
        take('p'); take('.'); take(); take('(')
        if m == 'advance':
            take(')'); return '.advance'
        if m == 'expect':
            k = kind(); take(')'); return f'.expect {kname(k)}'
        if m == 'advance_with_error':
            take('format!'); take('(')
            a, b = fmtstr(take()); take(',')
            n = nth()
            if peek() == ',': take(',')
            take(')')
            if peek() == ',': take(',')
            take(')')
            return f'.advErr {n} {a} {b}'
        raise SyntaxError(m)
    f = take(); take('('); take('p'); take(')')
    return f'.call .{fn2kind[f]}'

def ifstmt():
    take('if'); c = cond(); a = block()
    if peek() == 'else':
        take('else')
        b = [ifstmt()] if peek() == 'if' else block()
        return f'(.ite {c} {blk(a)} {blk(b)})'
    return f'(.ite {c} {blk(a)} .skip)'

def stmt():
    if peek() == 'let':
        take('let'); v = take(); take('=')
        n = nth(); take(';')
        VARS[v] = n
        return f'.look {n}'
    if peek() == 'const':
        while take() != ';' or toks[pos-2] != ']': pass
        return None
    if peek() == 'if': return ifstmt()
    if peek() == 'while':
        take('while'); c = cond()
        return f'(.while {c} {blk(block())})'
    if peek() == 'break':
        take('break'); take(';')
        return 'BREAK'
    s = stmt_expr()
    if peek() == ';': take(';')
    return s

bodies = {}
for m in re.finditer(r'^fn (\w+)\(p: &mut Parser\) \{\n(.*?)^\}', src, re.S | re.M):
    f, text = m[1], m[2]
    text = text.strip()
    k = fn2kind[f]
    assert text.startswith('let mark = p.enter();') or text.startswith('const'), f
    assert text.count('p.enter()') == 1 and text.count('p.exit(') == 1, f
    assert text.endswith(f'p.exit(mark, SyntaxKind::{k});'), f
    text = text.replace('let mark = p.enter();', '').replace(f'p.exit(mark, SyntaxKind::{k});', '')
    toks, pos = lex('{' + text + '}'), 0
    VARS.clear()
    b = block()
    assert pos == len(toks)
    bodies[k] = blk(b)

assert set(bodies) == set(fn2kind.values()), set(fn2kind.values()) ^ set(bodies)

print('import Verif.Model.Grammar\nnamespace Mofmt\nnamespace Transcribed\nopen Cmd')
for k, b in bodies.items():
    if 'BREAK' in b: continue
    print(f'def b{k} : Cmd := {b}')
print('''
/-- sequences to the right, without `skip` -/
def cat : Cmd → Cmd → Cmd
  | .skip, c => c
  | .seq a b, c => .seq a (cat b c)
  | a, .skip => a
  | a, c => .seq a c
def norm : Cmd → Cmd
  | .seq a b => cat (norm a) (norm b)
  | .ite c a b => .ite c (norm a) (norm b)
  | .while c a => .while c (norm a)
  | .ifk ks a b => .ifk ks (norm a) (norm b)
  | c => c
def same (k : SK) (c : Cmd) : Bool := norm (Grammar.body k) == norm c
''')
for k, b in bodies.items():
    if 'BREAK' in b:
        print(f'#eval "compare by hand: {k}"')
        continue
    print(f'#eval if same .{k} b{k} then "" else "DIFFERENT {k}"')
print(f'#eval "{len(bodies)} functions"')
print('end Transcribed\nend Mofmt')
