#!/usr/bin/env python3
"""Writes lean/Verif/Conform/Text.lean: what the project's tests expect of texts, replayed on the models."""
import os
OUT = os.path.join(os.path.dirname(__file__), '../lean/Verif/Conform/Text.lean')

def chars(s):
    r = []
    for c in s:
        for b in (c.encode('utf8') if ord(c) > 127 else [ord(c)]):
            ch = chr(b)
            if b > 127: r.append("'\\u%04x'" % b)
            elif ch == "'": r.append("'\\''")
            elif ch == "\\": r.append("'\\\\'")
            else: r.append("'%s'" % ch)
    return '[' + ', '.join(r) + ']'

lines = []
def ex(where, doc, stmt):
    lines.append('/-- %s: %s -/\nexample : %s := by decide +kernel\n' % (where, doc, stmt))

P = 'symbolic_parser_test.cpp'
def tokens(line, s, toks):
    ts = []
    for t in toks:
        if t[0].isdigit(): ts.append('.num ' + chars(t))
        elif t[0].isalpha(): ts.append('.word ' + chars(t))
        else: ts.append('.sym ' + chars(t))
    ex('%s:%d' % (P, line), 'the tokens of `%s`' % s, 'lexFuel 40 %s = [%s]' % (chars(s), ', '.join(ts)))
tokens(33, '', [])
tokens(34, '  ', [])
tokens(35, '23 ', ['23'])
tokens(36, '1.11 ', ['1.11'])
tokens(37, '   1.11e12 ', ['1.11e12'])
tokens(38, ' 1.23*12 ', ['1.23', '*', '12'])
tokens(43, ' 1.23* (12 + 4 )*exp(T)', ['1.23', '*', '(', '12', '+', '4', ')', '*', 'exp', '(', 'T', ')'])

def q(v): return '(some (.q (%s)))' % v
def val(where, s, v):
    ex(where, '`simplify` of `%s` is %s' % (s, v), 'value (expr %s) = %s' % (chars(s), v))
val(P+':104', '1.23', q('123 / 100'))
val(P+':111', '1.23+2.3', q('353 / 100'))
val(P+':118', '  2*3 * 4 ', q('24'))
val(P+':125', '2*3+4', q('10'))
val(P+':130', '4+2*3', q('10'))
val(P+':137', '2^3^4', q('2417851639229258349412352'))
val(P+':144', '(2 + 2 )^3', q('64'))
val(P+':151', '2*sin1', '(some (.bin .mul (.q 2) (.un .sin (.q 1))))')
val(P+':158', 'sin1*2', '(some (.bin .mul (.un .sin (.q 1)) (.q 2)))')
val(P+':165', 'cos sin 1', '(some (.un .cos (.un .sin (.q 1))))')
val(P+':172', '2.0/3.0*4.0', q('8 / 3'))
val(P+':179', '+---+-+1', q('1'))

def loop(where, s):
    ex(where, '`%s` is printed as it was read' % s, 'text (expr %s) = some %s' % (chars(s), chars(s)))
# the texts of lines 205-211 are what `<<` prints for the expressions there
loop(P+':206', 'x*-123.2')
loop(P+':207', '1-x*-123.2')
loop(P+':205', '80*T*(1-(ln T))+-318862-T*-410.30773724552921')
loop(P+':208', 'x+(sin x)')
loop(P+':209', 'x*x*x+x+x*(sin x)')
loop(P+':210', '2*x/2*x')
loop(P+':211', 'x*(x*x)')
loop(P+':239', '[1, 2, 3]')

def bad(where, s):
    ex(where, '`%s` is rejected' % s, 'throws (expr %s) = true' % chars(s))
bad(P+':217', '')
bad(P+':223', 'T-2)')
bad(P+':229', '((T-2)*2')

R = 'symbolic_runtime_test.cpp'
def same(where, doc, a, b):
    ex(where, doc, 'text (%s) = text (%s) ∧ text (%s) ≠ none' % (a, b, a))
def E(s): return 'expr ' + chars(s)
def D(s): return '((%s).bind (deriv ops [\'x\'])).bind simplify' % E(s)
def S(s, r): return '((%s).bind fun f => (%s).bind fun r => sub f r)' % (E(s), E(r))
same(R+':67', '`0*2` is `0`', E('0*2'), E('0'))
val(R+':77', '1.0+2.0', q('3'))
val(R+':81', '1.0-2.0', q('-1'))
val(R+':85', '2.0*3.0', q('6'))
val(R+':89', '2.0/3.0', q('2 / 3'))
val(R+':93', '2.0^3.0', q('8'))
same(R+':130', 'sub(x*x, x=y)', S('x*x', 'x=y'), E('y*y'))
ex(R+':133', 'sub(y*y, y=3)', 'value (%s.bind simplify) = %s' % (S('y*y', 'y=3.0'), q('9')))
for (l, a, b) in [(163, 'sin(x)', 'cos(x)'), (170, 'exp(x)', 'exp(x)'), (190, 'ln(x)', '1/x')]:
    same(R+':%d' % l, 'the derivative of `%s`' % a, D(a), E(b))
ex(R+':180', 'the derivative of `cos(x)`', 'text (%s) = some %s' % (D('cos(x)'), chars('-1*(sin x)')))
ex(R+':203', '`x+x*x` at 2', 'value (%s.bind simplify) = %s' % (S('x+x*x', 'x=2'), q('6')))
for (l, a, b) in [(210, '2.2', '0'), (212, '2*x', '2'), (213, 'x*x', 'x+x'), (214, 'x+x', '2'), (215, 'ln(x)', '1/x'),
                  (216, 'exp(x)', 'exp(x)'), (217, 'x*exp(x)', 'exp(x)+x*exp(x)')]:
    same(R+':%d' % l, 'the derivative of `%s`' % a, D(a), E(b))
same(R+':232', '`x` under {x:2, y:3}', S('x', '{x:2, y:3}'), E('2'))
same(R+':233', '`y` under {x:2, y:3}', S('y', '{x:2, y:3}'), E('3'))
same(R+':252', '`x` with x=2', S('x', 'x=2'), E('2'))

U = 'symbolic_units_test.cpp'
loop(U+':39', '1.2{m^2/s}')
ex(U+':43', 'a product of quantities', 'text ((%s).bind simplify) = some %s' % (E('2{m^2/s}*4{kg}'), chars('8{m^2/s*kg}')))
loop('symbolic_uncertainty_test.cpp:32', '1.2±3')

Y = 'stator_test.py'
ex(Y+':9', 'the derivative of `2*x^2`', 'text (%s) = some %s' % (D('2*x^2'), chars('4*x')))
ex(Y+':12', '`1+1`', 'text (%s) = some %s' % (E('1+1'), chars('2')))
loop(Y+':13', '1=1')
loop(Y+':17', '[]')
loop(Y+':18', '[1]')
loop(Y+':19', '[1, 2]')
ex(Y+':23', 'the derivative of a list', 'text (%s) = some %s' % (D('[1, x, 2*x^2]'), chars('[0, 1, 4*x]')))
ex(Y+':24', 'the derivative of a list at 2',
   'text (((%s).bind fun f => (%s).bind fun r => sub f r).bind simplify) = some %s' % (D('[1, x, 2*x^2]'), E('x=2'), chars('[0, 1, 8]')))
for (l, o, r, res) in [(25, '+', '[0,1,2,3]', '[1, 3, 5, 7]'), (26, '-', '[0,1,2,3]', '[1, 1, 1, 1]'), (27, '*', '[0,1,2,3]', '[0, 2, 6, 12]'),
                       (28, '/', '[1,2,3,2]', '[1, 1, 1, 2]')]:
    ex(Y+':%d' % l, 'lists, `%s`' % o, 'text (%s) = some %s' % (E('[1,2,3,4]' + o + r), chars(res)))
ex(Y+':39', '`x` under {x:2}', 'text (%s.bind simplify) = some %s' % (S('x', '{x:2}'), chars('2')))
val(Y+':42', '2+2', q('4'))

G = 'stator_example_test.py'
ex(G+':15', 'f(2) for f = x*x+2', 'value (%s.bind simplify) = %s' % (S('x*x+2', '{x:2}'), q('6')))
ex(G+':23', 'the derivative of a list of functions', 'text (%s) = some %s' % (D('[1, x, x^2/2, x^3/6, sin(x), sin(y)]'),
   chars('[0, 1, 4*x/4, 18*x^2/36, cos x, 0]')))

with open(OUT, 'w') as f:
    f.write('import Verif.Conform.Basic\n\n/-!\n# The tests of texts, replayed\n\nWritten by `tools/conform.py`. Each example names the test in `/repo/tests` it comes from.\n-/\n\nnamespace Stator.Conform\n\n')
    f.write('\n'.join(lines))
    f.write('\nend Stator.Conform\n')
print(len(lines))
