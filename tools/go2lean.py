#!/usr/bin/env python3
"""Translate the Go files of wdamron/amt into Lean, statement by statement.

Usage: go2lean.py REPO OUTDIR.  Writes OUTDIR/GoStringMap.lean, ... (one file for each of the ten containers), and
OUTDIR/ParStringMap.lean, ..., the same as trees of memory accesses.

The translator knows the small part of Go that these files use.  What it emits:
  uint8, uint32, uint64, uint, int64   BitVec 8, 32, 64, 64, 64       int   Int
  *link                                Ref: an object and an element index
  unsafe.Pointer, *kv, *V, *[2]link    Ptr
  l.pmap, l.pmap = e, l.pmap |= e      (<- load l).pmap, modLink l ...
  x &^ y, ^x                           x &&& ~~~y, ~~~x
  a && b, if b reads memory            andM a b (b is not evaluated if a is false)
  for cond { .. }                      for _ in budget fuel do if !cond then break; ..
  m.seed, m.len++                      (<- getRoot (<- deref m)).seed, modRoot (<- deref m) ..
  maphash.Hash                         Hasher: the seed and the bytes written so far
  mod(&kv.v, b), do(kv.k, &kv.v)       calls of a parameter that threads the caller's state u
Anything else is an error.
"""
import re, sys, os

TOK = re.compile(r'''
  (?P<ws>[ \t\r]+)|(?P<cm>//[^\n]*)|(?P<nl>\n)|
  (?P<id>[A-Za-z_][A-Za-z_0-9]*)|(?P<num>0[xX][0-9A-Fa-f]+|[0-9]+)|(?P<str>"[^"\n]*")|
  (?P<op>&\^=|<<=|>>=|&\^|<<|>>|:=|==|!=|<=|>=|&&|\|\||\+\+|--|\+=|-=|\*=|\|=|&=|[-+*/%&|^<>=!(){}\[\],;.:])
''', re.X)

def lex(src):
    out, line, i = [], 1, 0
    def last_ends():
        if not out: return False
        k, v, _ = out[-1]
        return k in ('id', 'num', 'str') and v not in ('func', 'for', 'if', 'else', 'var', 'type', 'switch', 'case', 'struct', 'interface', 'import', 'package') \
            or v in (')', ']', '}', '++', '--')
    while i < len(src):
        m = TOK.match(src, i)
        if not m: raise SystemExit(f'lex error at line {line}: {src[i:i+20]!r}')
        i = m.end()
        if m.lastgroup == 'nl':
            if last_ends(): out.append(('op', ';', line))
            line += 1
        elif m.lastgroup in ('id', 'num', 'str', 'op'):
            out.append((m.lastgroup, m.group(), line))
    out.append(('eof', '', line))
    return out

# ---------------------------------------------------------------- parser

class P:
    def __init__(self, toks): self.t, self.i, self.nolit = toks, 0, 0
    def peek(self, k=0): return self.t[self.i + k][1]
    def kind(self, k=0): return self.t[self.i + k][0]
    def line(self): return self.t[self.i][2]
    def next(self): self.i += 1; return self.t[self.i - 1][1]
    def eat(self, v):
        if self.peek() != v: raise SystemExit(f'line {self.line()}: expected {v!r}, found {self.peek()!r}')
        return self.next()
    def opt(self, v):
        if self.peek() == v: self.next(); return True
        return False

    def skip_balanced(self, o, c):
        self.eat(o); n = 1
        while n:
            v = self.next()
            if v == o: n += 1
            if v == c: n -= 1

    def type(self):
        if self.opt('*'): return '*' + self.type()
        if self.opt('['):
            n = '' if self.peek() == ']' else self.next()
            self.eat(']'); return f'[{n}]' + self.type()
        if self.opt('func'):
            self.eat('('); a = []
            while self.peek() != ')':
                a.append(self.type()); self.opt(',')
            self.eat(')')
            r = self.type() if self.kind() == 'id' else ''
            return f'func({", ".join(a)}){r}'
        if self.peek() == 'struct': self.next(); self.eat('{'); self.eat('}'); return 'struct{}'
        n = self.next()
        if self.peek() == '.': self.next(); n += '.' + self.next()
        if self.opt('['):
            a = [self.type()]
            while self.opt(','): a.append(self.type())
            self.eat(']'); n += '[' + ', '.join(a) + ']'
        return n

    # expressions
    PREC = {'||': 1, '&&': 2, '==': 3, '!=': 3, '<': 3, '<=': 3, '>': 3, '>=': 3,
            '+': 4, '-': 4, '|': 4, '^': 4, '*': 5, '/': 5, '%': 5, '<<': 5, '>>': 5, '&': 5, '&^': 5}
    def expr(self, p=1):
        l = self.unary()
        while self.PREC.get(self.peek(), 0) >= p and self.kind() == 'op':
            o = self.next(); r = self.expr(self.PREC[o] + 1); l = ('bin', o, l, r)
        return l
    def unary(self):
        if self.kind() == 'op' and self.peek() in ('!', '^', '*', '&', '-'):
            o = self.next(); return ('un', o, self.unary())
        return self.primary()
    def args(self):
        self.eat('('); s, self.nolit = self.nolit, 0; a = []
        while self.peek() != ')':
            a.append(self.expr()); self.opt(',')
        self.eat(')'); self.nolit = s; return a
    def lit(self, t):
        self.eat('{'); s, self.nolit = self.nolit, 0; a = []
        while self.peek() != '}':
            if self.kind() == 'id' and self.peek(1) == ':':
                k = self.next(); self.next(); a.append((k, self.expr()))
            else: a.append((None, self.expr()))
            self.opt(','); self.opt(';')
        self.eat('}'); self.nolit = s; return ('lit', t, a)
    CELLS = ('link', 'pathLink', 'strkv', 'byteskv', 'arrkv', 'kv', 'intkv')
    def primary(self):
        if self.kind() == 'num': e = ('num', int(self.next(), 0))
        elif self.peek() == '(':
            self.next(); s, self.nolit = self.nolit, 0; e = ('paren', self.expr()); self.nolit = s; self.eat(')')
        elif self.peek() == '[':
            t = self.type()
            e = self.lit(t) if self.peek() == '{' else ('type', t)
        elif self.kind() == 'id': e = ('id', self.next())
        else: raise SystemExit(f"line {self.line()}: unexpected {self.peek()!r}")
        while True:
            if self.peek() == '.': self.next(); e = ('sel', e, self.next())
            elif self.peek() == '(': e = ('call', e, self.args())
            elif self.peek() == '[':
                self.next()
                if self.peek() == ':':
                    self.next()
                    h = None if self.peek() == ']' else self.expr()
                    self.eat(']'); e = ('slice', e, h)
                elif self.kind() == 'id' and (self.peek() in ('K', 'V', 'struct')):
                    a = [self.type()]
                    while self.opt(','): a.append(self.type())
                    self.eat(']'); e = ('inst', e, a)
                else:
                    x = self.expr(); self.eat(']'); e = ('index', e, x)
            elif self.peek() == '{' and not self.nolit and (e[0] == 'inst' or e[0] == 'id' and e[1] in self.CELLS):
                e = self.lit(e[1] if e[0] == 'id' else e[1][1])
            else: return e

    # statements
    def block(self):
        self.eat('{'); out = []
        while self.peek() != '}':
            if self.opt(';'): continue
            out.append(self.stmt())
        self.eat('}'); return out
    def simple(self):
        ln = self.line(); l = [self.expr()]
        while self.opt(','): l.append(self.expr())
        o = self.peek()
        if o in (':=', '='):
            self.next(); r = [self.expr()]
            while self.opt(','): r.append(self.expr())
            return ('def' if o == ':=' else 'set', ln, l, r)
        if o in ('++', '--'): self.next(); return ('op', ln, o[0], l[0], ('num', 1))
        if o in ('+=', '-=', '|=', '&^=', '>>=', '<<='): self.next(); return ('op', ln, o[:-1], l[0], self.expr())
        return ('do', ln, l[0])
    def stmt(self):
        ln = self.line()
        if self.opt('return'):
            r = []
            while self.peek() not in (';', '}'):
                r.append(self.expr()); self.opt(',')
            return ('return', ln, r)
        if self.opt('continue'): return ('continue', ln)
        if self.opt('var'):
            n = self.next(); return ('var', ln, n, self.type())
        if self.opt('if'): return self.if_(ln)
        if self.opt('for'):
            self.nolit += 1
            if self.peek() == '{': init = cond = post = None
            else:
                s = self.simple()
                if self.opt(';'):
                    init, cond = s, self.expr(); self.eat(';'); post = self.simple()
                else: init, cond, post = None, s[2], None
            self.nolit -= 1
            return ('for', ln, init, cond, post, self.block())
        if self.opt('switch'):
            self.eat('{'); cs = []
            while self.peek() != '}':
                if self.opt('default'): c = None
                else: self.eat('case'); c = self.expr()
                self.eat(':'); b = []
                while self.peek() not in ('case', 'default', '}'):
                    if self.opt(';'): continue
                    b.append(self.stmt())
                cs.append((c, b))
            self.eat('}'); return ('switch', ln, cs)
        return self.simple()
    def if_(self, ln):
        self.nolit += 1
        s = self.simple(); init = None
        if self.opt(';'): init, cond = s, self.expr()
        else: cond = s[2]
        self.nolit -= 1
        th = self.block(); el = None
        if self.opt('else'):
            l2 = self.line()
            el = [self.if_(l2)] if self.opt('if') else self.block()
        return ('if', ln, init, cond, th, el)

    def params(self):
        self.eat('('); a = []
        while self.peek() != ')':
            n = self.next(); a.append((n, self.type())); self.opt(',')
        self.eat(')'); return a
    def file(self):
        fs = []
        while self.kind() != 'eof':
            if self.opt(';'): continue
            if self.opt('func'):
                ln, recv = self.line(), None
                if self.peek() == '(':
                    recv = self.params()[0]
                name = self.next()
                if self.peek() == '[': self.skip_balanced('[', ']')
                ps = self.params(); res = []
                if self.peek() == '(': res = self.params()
                elif self.peek() != '{': res = [(None, self.type())]
                self.nolit = 0
                if name not in WANT and not name.endswith('Scan'):
                    self.skip_balanced('{', '}'); continue
                b = self.block()
                fs.append(dict(line=ln, end=self.t[self.i - 1][2], recv=recv, name=name, params=ps, res=res, body=b))
            elif self.peek() in ('package',): self.next(); self.next()
            elif self.opt('import'):
                self.skip_balanced('(', ')') if self.peek() == '(' else self.next()
            elif self.opt('const'):
                while self.peek() != ';': self.next()
            elif self.opt('type'):
                self.next()
                while self.peek() not in ('{', ';'):
                    self.next()
                if self.peek() == '{': self.skip_balanced('{', '}')
            else: raise SystemExit(f"line {self.line()}: unexpected {self.peek()!r}")
        return fs

# ---------------------------------------------------------------- emitter

W = {'u8': 8, 'u32': 32, 'u64': 64, 'i64': 64}
KW = {'do': 'do_', 'at': 'at_'}

class Em:
    """Emit one function."""
    def __init__(self, cont, f):
        self.c, self.f = cont, f
        self.vars, self.mut, self.out, self.ind = {}, set(), [], 1
        self.assigned(f['body'])
    def err(self, msg): raise SystemExit(f'{self.c["file"]}:{self.ln}: {msg}')
    def assigned(self, b):
        for s in b:
            if s[0] == 'set': [self.mut.add(x[1]) for x in s[2] if x[0] == 'id']
            elif s[0] == 'op' and s[3][0] == 'id': self.mut.add(s[3][1])
            elif s[0] == 'do' and s[2][0] == 'call' and s[2][1][0] == 'sel' and s[2][1][1][0] == 'id': self.mut.add(s[2][1][1][1])
            elif s[0] == 'if':
                self.assigned(s[4])
                if s[5]: self.assigned(s[5])
                if s[2]: self.assigned([s[2]])
            elif s[0] == 'for':
                self.assigned(s[5])
                if s[4]: self.assigned([s[4]])
            elif s[0] == 'switch': [self.assigned(b) for _, b in s[2]]
            if s[0] == 'set':
                for x in s[2]:
                    if x[0] == 'sel' and x[1][0] == 'index' and x[1][1] == ('id', 'path'): self.mut.add('path')
    def w(self, s): self.out.append('  ' * self.ind + s + (f'  -- {self.ln}' if self.ln != self.lastln else '')); self.lastln = self.ln

    # types of variables
    def gotype(self, t):
        c = self.c
        if t == 'string' or t == '[]byte': return 'key' if c['key'] == 'ByteStr' else 'bytes'
        if t in ('IntKey', 'K'): return 'key'
        if t == 'V': return 'val'
        if t == '*V': return 'valptr'
        if t == '*link': return 'ref'
        if t == 'uint8': return 'u8'
        if t == 'bool': return 'bool'
        if t.startswith('func('): return 'func'
        self.err(f'type {t}')
    def lift(self, x): return f'(← {x})'
    def isrecv(self, e): return e[0] == 'id' and self.f['recv'] and e[1] == self.f['recv'][0]
    def recv(self): return f'(← deref {self.f["recv"][0]})'
    def keyt(self): return 'i64' if self.c['key'] == 'IntKey' else 'key'

    def conv(self, v, t):
        """An expression of type t from (code, type), constants adapt."""
        if v[1] == 'const':
            if t in W: return f'{v[0]}#{W[t]}'
            if t in ('int', 'nat'): return v[0]
        if v[1] == t or {v[1], t} == {'key', 'i64'} and self.keyt() == 'i64': return v[0]
        self.err(f'have {v}, want {t}')
    def same(self, a, b):
        if a[1] == 'const' and b[1] != 'const': return self.conv(a, b[1]), b[0], b[1]
        t = self.norm(a[1])
        return a[0], (b[0] if t == 'const' else self.conv(b, t)), t
    def norm(self, t): return 'i64' if t == 'key' and self.keyt() == 'i64' else t

    def ex(self, e):
        k = e[0]
        if k == 'num': return str(e[1]), 'const'
        if k == 'paren':
            v = self.ex(e[1]); return v
        if k == 'id':
            n = e[1]
            if n in ('true', 'false'): return n, 'bool'
            if n == 'nil': return '.nil', 'nil'
            if n == 'linkSize': return '', 'linkSize'
            if n in self.vars: return KW.get(n, n), self.norm(self.vars[n])
            self.err(f'unknown {n}')
        if k == 'sel': return self.sel(e)
        if k == 'un': return self.un(e)
        if k == 'bin': return self.bin(e)
        if k == 'call': return self.call(e)
        if k == 'slice':
            if e[1][0] == 'sel' and self.isrecv(e[1][1]) and e[1][2] == 'path' and e[2] == ('num', 0):
                return f'Slice.ofRoot {self.recv()} scratch', 'mpath'
            v = self.ex(e[1])
            if v[1] == 'bytes' and e[2] is None: return v
        if k == 'lit': return self.lit(e)
        self.err(f'expression {e}')

    def sel(self, e):
        b, n = e[1], e[2]
        if self.isrecv(b):
            if n in ('seed', 'len', 'dep'): return f'{self.lift("getRoot " + self.recv())}.{n}', 'u64' if n != 'seed' else 'seed'
            if n == 'root': return self.f['recv'][0], 'root'
        if b[0] == 'index':
            v, i = self.ex(b[1]), self.ex(b[2])
            if v[1] == 'path' and i[1] == 'u8':
                if n == 'link': return self.lift(f'{v[0]}.linkAt {i[0]}'), 'ref'
                if n == 'radix': return self.lift(f'{v[0]}.radixAt {i[0]}'), 'u8'
        v = self.ex(b)
        if v[1] == 'ref' and n in ('pmap', 'tmap'): return f'{self.lift("load " + v[0])}.{n}', 'u32'
        if v[1] == 'ref' and n == 'ptr': return f'{self.lift("load " + v[0])}.ptr', 'ptr'
        if v[1] == 'kv' and n == 'k': return self.lift('kvKey ' + v[0]), 'key'
        self.err(f'selector {e} of {v}')

    def un(self, e):
        o, b = e[1], e[2]
        if o == '&':
            if b[0] == 'sel' and self.isrecv(b[1]) and b[2] == 'link': return f'linkOf {self.recv()}', 'ref'
            if b[0] == 'lit':
                v = self.lit(b)
                if v[1] == 'cell': return self.lift('alloc ' + v[0]), 'kv'
            if b[0] == 'sel' and b[2] == 'v':
                v = self.ex(b[1])
                if v[1] == 'kv': return self.lift('fieldAddr ' + v[0]), 'valptr'
        if o == '*':
            v = self.ex(b)
            if v[1] == 'ref': return self.lift('load ' + self.par(v[0])), 'link'
            if v[1] == 'valptr': return self.lift('kvVal ' + v[0]), 'val'
        if o == '^':
            v = self.ex(b)
            if v[1] in W: return f'~~~{v[0]}', v[1]
        if o == '!':
            v = self.ex(b)
            if v[1] == 'bool': return f'!({v[0]})' if ' ' in v[0] else f'!{v[0]}', 'bool'
        self.err(f'unary {e}')

    def strip(self, s):
        """Drop a pair of parentheses around all of s."""
        while s.startswith('(') and s.endswith(')') and not s.startswith('(←') and ' : ' not in s:
            n = 0
            for i, ch in enumerate(s):
                n += (ch == '(') - (ch == ')')
                if n == 0: break
            if i != len(s) - 1: break
            s = s[1:-1]
        return s
    def par(self, s): return s if re.fullmatch(r'[A-Za-z_0-9.#]+|\(([^()]|\([^()]*\))*\)(\.[a-z]+)?', s) else f'({s})'

    def bin(self, e):
        o = e[1]; a, b = self.ex(e[2]), self.ex(e[3])
        if o in ('&&', '||'):
            if '←' in b[0]:
                f = 'andM' if o == '&&' else 'orM'
                return self.lift(f'{f} (do pure {self.par(a[0])}) (do pure {self.par(b[0])})'), 'bool'
            return f'({a[0]} {o} {b[0]})', 'bool'
        if o in ('==', '!='):
            if a[1] == 'root' and b[1] == 'nil': return (f'{a[0]}.isNone' if o == '==' else f'{a[0]}.isSome'), 'bool'
            if a[1] == 'valptr' and b[1] == 'nil': return f'({a[0]} {o} .nil)', 'bool'
            if self.norm(a[1]) == 'key' and b[1] == 'key':
                r = f'goEq {self.par(a[0])} {self.par(b[0])}'
                return (r if o == '==' else f'!({r})'), 'bool'
            x, y, t = self.same(a, b)
            if t == 'i64':
                r = f'goEq {self.par(x)} {self.par(y)}'
                return (r if o == '==' else f'!({r})'), 'bool'
            if t in W or t == 'const': return f'({x} {o} {y})', 'bool'
        if o in ('<', '<=', '>', '>='):
            x, y, t = self.same(a, b)
            if t in ('u8', 'u32', 'int'): return f'decide ({x} {dict(zip(("<","<=",">",">="),("<","≤",">","≥")))[o]} {y})', 'bool'
        if o == '*' and b[1] == 'linkSize':
            if a[1] == 'off': return a[0], 'bytesoff'
        if o == '+' and a[1] == 'addr' and b[1] == 'bytesoff': return f'elem {self.par(a[0])} {self.par(b[0])}', 'elemaddr'
        if a[1] == 'const' and b[1] == 'const':
            x, y = int(a[0]), int(b[0])
            if o == '/': return str(x // y), 'const'
        if o in ('<<', '>>'):
            t = a[1]
            if t == 'const': t, a = 'shift1', a
            if b[1] == 'const': n = b[0]
            elif b[1] == 'u8': n = self.par(b[0])
            else: self.err('shift amount')
            if t == 'shift1': return f'#SHIFT {a[0]} {o*1}{o*0} {n}', 'constshift'
            if o == '<<': return f'({self.par(a[0])} <<< {n})', t
            if t == 'i64':
                if b[1] != 'const': self.err('shift')
                return f'({self.par(a[0])}.sshiftRight {n})', t
            return f'({self.par(a[0])} >>> {n})', t
        if o in ('+', '-', '*', '%', '&', '|', '&^'):
            x, y, t = self.same(a, b)
            if t in W:
                s = {'&': '&&&', '|': '|||'}.get(o, o)
                if o == '&^': return f'({x} &&& ~~~{self.par(y)})', t
                return f'({x} {s} {y})', t
            if t == 'int' and o in '+-': return f'({x} {o} {y})', t
        self.err(f'binary {e}: {a} {b}')

    def call(self, e):
        fn, args = e[1], e[2]
        name = fn[1] if fn[0] == 'id' else None
        if fn[0] == 'sel' and fn[1] == ('id', 'bits'):
            v = self.ex(args[0])
            if v[1] == 'u32': return {'OnesCount32': 'popcount', 'TrailingZeros32': 'trailingZeros'}[fn[2]] + ' ' + self.par(self.strip(v[0])), 'nat'
        if fn[0] == 'sel' and fn[1] == ('id', 'unsafe') and fn[2] == 'Pointer':
            v = self.ex(args[0])
            if v[1] == 'elemaddr': return v
            if v[1] in ('kv', 'ptr'): return v[0], 'ptr'
        if fn[0] == 'sel' and fn[1] == ('id', 'bytes') and fn[2] == 'Equal':
            a, b = self.ex(args[0]), self.ex(args[1])
            if a[1] == b[1] == 'key': return f'bytesEqual {self.par(a[0])} {self.par(b[0])}', 'bool'
        if fn[0] == 'paren' and fn[1][0] == 'un' and fn[1][1] == '*':    # (*T)(x)
            t = fn[1][2]; v = self.ex(args[0])
            if t == ('id', 'link'):
                if v[1] == 'elemaddr': return v[0], 'ref'
                if v[1] == 'ptr': return f'elem {self.par(v[0])} 0', 'ref'
            if t == ('type', '[2]link') and v[1] == 'ptr': return v[0], 'pair'
            tn = t[1][1] if t[0] == 'inst' else t[1]
            if tn in P.CELLS and v[1] == 'ptr': return v[0], 'kv'
        if name == 'uintptr':
            v = self.ex(args[0])
            if v[1] == 'ptr': return v[0], 'addr'
            if v[1] in ('u8', 'int'): return f'{self.par(self.strip(v[0]))}.toNat', 'off'
        if name in ('uint8', 'uint32', 'uint64', 'uint', 'IntKey', 'byte', 'int'):
            v = self.ex(args[0])
            t = {'uint8': 'u8', 'byte': 'u8', 'uint32': 'u32', 'uint64': 'u64', 'uint': 'u64', 'IntKey': 'i64', 'int': 'int'}[name]
            if v[1] == 'const': return self.conv(v, t), t
            if v[1] == 'nat' and t == 'u8': return f'BitVec.ofNat 8 ({v[0]})', t
            if v[1] in ('u8',) and t == 'int': return f'({self.par(v[0])}.toNat : Int)', t
            if v[1] in W and t in W: return f'{self.par(v[0])}.setWidth {W[t]}', t
        if name == 'newLinkArray':
            v = self.conv(self.ex(args[0]), 'u8')
            return self.lift(f'newLinkArray {self.par(v)}'), 'ptr'
        if name == 'newRoot': return self.lift('newRoot seed'), 'root'
        if name == 'intbytes': return f'intbytes {self.par(self.ex(args[0])[0])}', 'bytes'
        if name == 'append':
            p, x = self.ex(args[0]), args[1]
            if p[1] == 'path' and x[0] == 'lit' and x[1] == 'pathLink':
                r, l = self.ex(x[2][0][1]), self.ex(x[2][1][1])
                if (r[1], l[1]) == ('u8', 'ref'): return f'{p[0]}.append ({r[0]}.toNat, some {l[0]})', 'path'
        if fn[0] == 'sel':
            if self.isrecv(fn[1]) and fn[2] == 'Ptr':
                return self.lift(f'Ptr {self.c["pargs"]} {fn[1][1]} {self.par(self.ex(args[0])[0])}'), 'valptr'
            v = self.ex(fn[1])
            if v[1] == 'hash' and fn[2] == 'Sum64': return f'{v[0]}.sum64 sum', 'u64'
            if v[1] == 'key' and fn[2] == 'KeyBytes': return f'keyBytes {v[0]}', 'bytes'
            if v[1] == 'key' and fn[2] == 'Equal': return f'I.equal {v[0]} {self.par(self.ex(args[0])[0])}', 'bool'
            if v[1] == 'key' and fn[2] == 'Hash':
                s, i = self.ex(args[0]), self.ex(args[1])
                return f'I.hash {v[0]} {s[0]} ({self.conv(i, "u64")}).toNat', 'u64'
        self.err(f'call {e}')

    def lit(self, e):
        t, fs = e[1], e[2]
        if t == 'link':
            out = []
            for k, x in fs:
                v = self.ex(x); out.append(f'{k} := {self.conv(v, "ptr" if k == "ptr" else "u32")}')
            return '{ ' + ', '.join(out) + ' : Link }', 'link'
        if t in P.CELLS:
            names = ('v',) if t == 'intkv' else ('v', 'k')
            d = {}
            for (k, x), n in zip(fs, names): d[k or n] = self.ex(x)[0]
            k = 'none' if t == 'intkv' else f'(some {d["k"]})'
            return f'(.kv {k} {d.get("v", self.c["zero"])})', 'cell'
        if t == '[8]byte':
            return '[' + ', '.join(f'⟨{self.ex(x)[0]}⟩' for _, x in fs) + ']', 'bytes'
        self.err(f'literal {e}')

    # statements
    def bind(self, n, v, new):
        code, t = v
        if t == 'constshift': self.err('constshift')
        nm = KW.get(n, n)
        if new:
            if t == 'mpath': code, t = self.lift(code), 'path'
            ann = {'ref': ' : Ref', 'u8': ' : BitVec 8', 'u32': ' : BitVec 32', 'u64': ' : BitVec 64', 'kv': ' : Amt.Ptr', 'pair': ' : Amt.Ptr', 'ptr': ' : Amt.Ptr', 'int': ' : Int'}.get(t, '')
            if t == 'key' or t == 'i64': ann = f' : {self.c["key"]}'
            self.vars[n] = t
            self.w(f'let {"mut " if n in self.mut else ""}{nm}{ann} := {self.strip(code)}')
        else:
            want = self.vars[n]
            if t == 'nil' and want == 'valptr': code, t = '.nil', 'valptr'
            self.w(f'{nm} := {self.strip(self.conv((code, t), self.norm(want)))}')

    def shiftfix(self, e, t):
        """`1 << radix` takes its type from the context."""
        if e[0] == 'bin' and e[1] == '<<' and e[2] == ('num', 1): return ('bin', '<<', ('call', ('id', {'u32': 'uint32'}[t]), [('num', 1)]), e[3])
        return e

    def assign(self, l, r):
        if l[0] == 'id':
            if l[1] == '_': return
            t = self.vars[l[1]]
            self.bind(l[1], self.ex(self.shiftfix(r, t) if t in W else r), False); return
        if l[0] == 'sel':
            if l[1][0] == 'index':
                b = l[1]
                v = self.ex(b[1])
                if v[1] == 'path' and l[2] == 'link' and r == ('id', 'nil'):
                    self.w(f'{v[0]} ← {v[0]}.clearAt {self.ex(b[2])[0]}'); return
                if v[1] == 'pair' and l[2] == 'ptr':
                    self.w(f'setPtr (elem {v[0]} {self.ex(b[2])[0]}) {self.par(self.conv(self.ex(r), "ptr"))}'); return
            v = self.ex(l[1])
            if v[1] == 'kv' and l[2] == 'v': self.w(f'storeVal {v[0]} {self.par(self.ex(r)[0])}'); return
            if v[1] == 'ref' and l[2] in ('pmap', 'tmap', 'ptr'):
                x = self.ex(r)
                if x[1] == 'nil': x = ('.nil', 'ptr')
                self.w(f'set{l[2].capitalize()} {v[0]} {self.par(self.conv(x, "ptr" if l[2] == "ptr" else "u32"))}'); return
        if l[0] == 'un' and l[1] == '*':
            v = self.ex(l[2])
            if v[1] == 'ref':
                x = self.ex(r)
                self.w(f'store {self.par(v[0])} {self.par(self.conv(x, "link"))}'); return
        if l[0] == 'index':
            v = self.ex(l[1])
            if v[1] == 'pair':
                self.w(f'store (elem {v[0]} {self.ex(l[2])[0]}) {self.par(self.conv(self.ex(r), "link"))}'); return
        self.err(f'assignment {l} = {r}')

    def ids(self, e):
        if isinstance(e, tuple):
            if e[0] == 'id': return {e[1]}
            return set().union(*[self.ids(x) for x in e[1:]]) if len(e) > 1 else set()
        if isinstance(e, list): return set().union(set(), *[self.ids(x) for x in e])
        return set()

    def block(self, b):
        self.ind += 1; saved = dict(self.vars)
        n = len(self.out)
        for s in b: self.stmt(s)
        if len(self.out) == n: self.w('pure ()')
        self.vars = saved; self.ind -= 1

    def callback(self, c):
        """A call that returns a bool and threads u; (code) or None."""
        if c[0] != 'call' or c[1][0] != 'id': return None
        n = c[1][1]
        if self.vars.get(n) == 'func':
            a = [self.par(self.ex(x)[0]) for x in c[2]]
            return f'{KW.get(n, n)} u ' + ' '.join(a)
        if n.endswith('Scan'):
            self.rec = n == self.f['name']
            l = self.par(self.ex(c[2][0])[0])
            d = KW.get(c[2][1][1], c[2][1][1])
            return f'{n} {d} fuel u {l}' if self.rec else f'{n} {d} fuel u {l}'
        return None

    def ret(self, vals):
        f = self.f; kind = f['kind']
        if kind == 'del': return 'return path.arr'
        if kind == 'mod': return 'return u'
        if kind == 'scan': return f'return (u, {vals[0]})'
        if f['res'] and f['res'][0][0]:    # named results
            ns = [n for n, _ in f['res']]
            return 'return ' + (ns[0] if len(ns) == 1 else '(' + ', '.join(ns) + ')')
        if not vals: return 'return'
        return 'return ' + vals[0]

    def cond(self, e):
        return self.ex(e)

    def stmt(self, s):
        self.ln = s[1]; k = s[0]
        if k == 'var':
            if s[3] == 'maphash.Hash':
                self.vars[s[2]] = 'hash'; self.w(f'let mut {s[2]} : Hasher := {{}}'); return
        if k in ('def', 'set'):
            l, r = s[2], s[3]
            if len(l) != len(r): self.err('assignment count')
            # simultaneous assignment: done in order, which is the same if nothing assigned is read later
            if len(l) > 1:
                for i in range(len(l)):
                    if l[i][0] == 'id':
                        for j in range(i + 1, len(r)):
                            if l[i][1] in self.ids(r[j]) or (l[j][0] != 'id' and l[i][1] in self.ids(l[j])): self.err('simultaneous assignment')
            for a, b in zip(l, r):
                self.ln = s[1]
                if k == 'def':
                    self.bind(a[1], self.ex(b), True)
                else: self.assign(a, b)
            return
        if k == 'op':
            o, l, r = s[2], s[3], s[4]
            if l[0] == 'id':
                t = self.vars[l[1]]
                self.bind(l[1], self.ex(('bin', o, l, self.shiftfix(r, t) if o not in ('<<', '>>') and t in W else r)), False); return
            if l[0] == 'sel' and self.isrecv(l[1]) and l[2] in ('len', 'dep'):
                r2 = self.conv(self.ex(r), 'u64')
                self.w(f'modRoot {self.recv()} fun r => {{ r with {l[2]} := r.{l[2]} {o} {r2} }}'); return
            if l[0] == 'sel' and l[2] in ('pmap', 'tmap'):
                v = self.ex(l[1]); r2 = self.par(self.conv(self.ex(self.shiftfix(r, 'u32')), 'u32'))
                opx = {'|': '|||', '&^': '&&& ~~~'}[o]
                sp = ' ' if o == '|' else ''
                if v[1] == 'ref': self.w(f'set{l[2].capitalize()} {v[0]} ((← load {v[0]}).{l[2]} {opx}{sp}{r2})'); return
        if k == 'do':
            c = s[2]
            if c[0] == 'call':
                fn = c[1]
                if fn[0] == 'sel' and fn[1][0] == 'id' and self.vars.get(fn[1][1]) == 'hash':
                    n = fn[1][1]; a = self.ex(c[2][0])
                    m = {'SetSeed': 'setSeed', 'Write': 'write', 'WriteString': 'write'}[fn[2]]
                    self.w(f'{n} := {n}.{m} {self.par(a[0])}'); return
                if fn[0] == 'id' and self.vars.get(fn[1]) == 'func':
                    a = [self.par(self.ex(x)[0]) for x in c[2]]
                    self.w(f'u ← {fn[1]} u ' + ' '.join(a)); return
                cb = self.callback(c)
                if cb: self.w(f'let r ← {cb}'); self.w('return r.1'); return
        if k == 'return':
            if s[2] and s[2][0][0] == 'call' and self.callback(s[2][0]): self.err('return of callback')
            vals = []
            for x in s[2]:
                v = self.ex(x)
                vals.append('.nil' if v[1] == 'nil' else v[0])
            self.w(self.ret(vals)); return
        if k == 'continue': self.w('continue'); return
        if k == 'if':
            _, ln, init, c, th, el = s
            if init: self.stmt(init); self.ln = ln
            if c[0] == 'un' and c[1] == '!' and self.callback(c[2]):
                cb = self.callback(c[2])
                self.w(f'let r ← {cb}'); self.w('u := r.1'); self.w('if !r.2 then')
            else:
                v = self.cond(c)
                if v[1] != 'bool': self.err('condition')
                self.w(f'if {self.strip(v[0])} then')
            self.block(th)
            if el is not None:
                self.ln = el[0][1] if el else ln
                self.w('else'); self.block(el)
            return
        if k == 'for':
            _, ln, init, c, post, b = s
            saved = dict(self.vars)
            if init: self.stmt(init); self.ln = ln
            self.w('for _ in budget fuel do')
            self.ind += 1
            if c is not None:
                v = self.cond(c)
                self.w(f'if !{self.par(self.strip(v[0]))} then break')
            for x in b: self.stmt(x)
            if post:
                if any(x[0] == 'continue' for x in b): self.err('continue in counted loop')
                self.ln = ln; self.stmt(post)
            self.ind -= 1; self.vars = saved; return
        if k == 'switch':
            first = True
            for c, b in s[2]:
                self.ln = b[0][1]
                if c is not None:
                    self.w(('if ' if first else 'else if ') + self.cond(c)[0] + ' then')
                else: self.w('else')
                self.block(b); first = False
            return
        self.err(f'statement {s}')

    def body(self, pre=()):
        f = self.f; self.lastln = None; self.ln = f['line']
        for x in pre: self.out.append('  ' + x)
        for s in f['body']: self.stmt(s)
        last = f['body'][-1]
        if last[0] != 'return' and not (last[0] == 'do' and self.callback(last[2])):
            self.ln = f['end']; self.w(self.ret([]))
        return self.out

CONT = [
    dict(file='string_map.go', ns='StringMap', key='ByteStr', vars='{V : Type} [Inhabited V] (sum : Maphash)', args='sum', map=True),
    dict(file='string_set.go', ns='StringSet', key='ByteStr', vars='(sum : Maphash)', args='sum', map=False),
    dict(file='bytes_map.go', ns='BytesMap', key='ByteStr', vars='{V : Type} [Inhabited V] (sum : Maphash)', args='sum', map=True),
    dict(file='bytes_set.go', ns='BytesSet', key='ByteStr', vars='(sum : Maphash)', args='sum', map=False),
    dict(file='arr_map.go', ns='ArrMap', key='K', vars='{K V : Type} [DecidableEq K] [Inhabited V] (sum : Maphash) (keyBytes : K → List UInt8)', args='sum keyBytes', map=True),
    dict(file='arr_set.go', ns='ArrSet', key='K', vars='{K : Type} [DecidableEq K] (sum : Maphash) (keyBytes : K → List UInt8)', args='sum keyBytes', map=False),
    dict(file='int_map.go', ns='IntMap', key='IntKey', vars='{V : Type} [Inhabited V] (sum : Maphash)', args='sum', map=True),
    dict(file='int_set.go', ns='IntSet', key='IntKey', vars='(sum : Maphash)', args='sum', map=False),
    dict(file='generic_map.go', ns='Map', key='K', vars='{K V : Type} [Inhabited V] (I : KeyImpl K)', args='I', map=True),
    dict(file='generic_set.go', ns='Set', key='K', vars='{K : Type} (I : KeyImpl K)', args='I', map=False),
]
WANT = ('Get', 'Val', 'Ptr', 'Has', 'Set', 'Mod', 'Add', 'Del', 'All')

def sig(c, f):
    """Binders and result type of a translated function."""
    K, V = c['key'], 'V' if c['map'] else 'Unit'
    M = lambda r: f'M {K} {V} {r}'
    n = f['name']
    m = f['recv'][0] if f['recv'] else None
    if n.endswith('Scan'):
        cb = f'(do_ : U → {K} → Amt.Ptr → {M("(U × Bool)")})' if c['map'] else f'(do_ : U → {K} → {M("(U × Bool)")})'
        return None, cb, f'U → Ref → {M("(U × Bool)")}'
    key = f'(key : {K})'
    return {
        'Get': (f'(fuel : Nat) ({m} : Handle) {key}', M('(V × Bool)')),
        'Val': (f'(fuel : Nat) ({m} : Handle) {key}', M('V')),
        'Ptr': (f'(fuel : Nat) ({m} : Handle) {key}', M('Amt.Ptr')),
        'Has': (f'(fuel : Nat) ({m} : Handle) {key}', M('Bool')),
        'Set': (f'(fuel : Nat) ({m} : Handle) {key} (value : V)', M('Unit')),
        'Add': (f'(fuel : Nat) ({m} : Handle) {key}', M('Unit')),
        'Mod': (f'{{U : Type}} (fuel : Nat) ({m} : Handle) {key} (mod : U → Amt.Ptr → Bool → {M("U")}) (u₀ : U)', M('U')),
        'Del': (f'(fuel : Nat) ({m} : Handle) {key} (scratch : List PathLink)', M('(List PathLink)')),
        'All': (f'{{U : Type}} (fuel : Nat) ({m} : Handle) (do_ : U → {K} → ' + ('Amt.Ptr → ' if c['map'] else '') + f'{M("(U × Bool)")}) (u : U)', M('U')),
    }[n]

def translate(repo, outdir):
    for c in CONT:
        c['zero'] = 'default' if c['map'] else '()'
        c['pargs'] = c['args'] + ' fuel'
        fs = P(lex(open(os.path.join(repo, c['file'])).read())).file()
        out = [f'/-', f'{c["file"]}, translated statement by statement by tools/go2lean.py; do not edit.  The number at the end of a line is the line of', f'{c["file"]}.', '-/',
               'import Verif.Go', '', 'set_option linter.unusedVariables false', '', f'namespace Amt.Go.{c["ns"]}', '']
        todo = [f for f in fs if f['name'] in WANT or f['name'].endswith('Scan')]
        order = ['Ptr', 'Get', 'Val', 'Has', 'Set', 'Mod', 'Add', 'Del', 'SCAN', 'All']
        todo.sort(key=lambda f: order.index(f['name'] if f['name'] in order else 'SCAN'))
        # shared functions of the key type live with the container that declares them
        for f in todo:
            f['kind'] = {'Del': 'del', 'Mod': 'mod', 'All': 'all'}.get(f['name'], 'scan' if f['name'].endswith('Scan') else 'fn')
            if f['kind'] == 'scan':
                f['res'] = []
            em = Em(c, f)
            em.ln = f['line']
            for n, t in f['params']: em.vars[n] = em.gotype(t)
            for n, t in f['res']:
                if n: em.vars[n] = em.gotype(t)
            doc = f'/-- {c["file"]}:{f["line"]}-{f["end"]}. -/'
            pre = []
            if f['kind'] == 'mod': pre = ['let mut u := u₀']
            if f['res'] and f['res'][0][0]:
                for n, t in f['res']: pre.append(f'let mut {n} : {"V" if t == "V" else "Bool"} := {"default" if t == "V" else "false"}')
            if f['kind'] == 'scan':
                pre = ['let mut u := u₀']
                _, cb, ty = sig(c, f)
                vs = '{K V U : Type} [Inhabited V]' if c['key'] == 'K' and c['map'] else '{K U : Type}' if c['key'] == 'K' else '{V U : Type} [Inhabited V]' if c['map'] else '{U : Type}'
                body = em.body(pre)
                out += [doc, f'def {f["name"]} {vs} {cb} : Nat → {ty}', '  | 0, _, _ => M.fail .diverge', '  | fuel + 1, u₀, l => do'] + ['  ' + x for x in body]
            else:
                b, r = sig(c, f)
                body = em.body(pre)
                if f['kind'] == 'all':
                    v = ' '.join(x for x in re.findall(r'\{[^}]*\}|\[[^]]*\]', c['vars']))
                else: v = c['vars']
                out += [doc, f'def {f["name"]} {v} {b} : {r} := do'.replace('  ', ' ')] + body
            out.append('')
        out += [f'end Amt.Go.{c["ns"]}', '']
        text = '\n'.join(out)
        open(os.path.join(outdir, f'Go{c["ns"]}.lean'), 'w').write(text)
        open(os.path.join(outdir, f'Par{c["ns"]}.lean'), 'w').write(as_tree(text))

def as_tree(s):
    """The same program in the monad `T` of Par.lean."""
    s = s.replace('import Verif.Go\n', 'import Verif.Par\n').replace('Amt.Go.', 'Amt.Par.')
    s = s.replace('statement by statement by', 'as a tree of memory accesses by')
    s = re.sub(r'\bM (ByteStr|IntKey|K) (V|Unit)\b', r'T \1 \2', s).replace('M.fail', 'T.fail')
    s = re.sub(r'modRoot (\S+ \S+ \S+) fun r => \{ r with (len|dep) := r\.\2 (.*) \}', lambda m: f'mod{m[2].capitalize()} {m[1]} fun x => x {m[3]}', s)
    return re.sub(r'\.(ofRoot|linkAt|radixAt|clearAt)\b', r'.\1T', s)

if __name__ == '__main__':
    translate(sys.argv[1], sys.argv[2])
