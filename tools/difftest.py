#!/usr/bin/env python3
"""Compare the definitions that model functions of python's library with the installed python.

usage: difftest.py [SEED]      (needs a finished `lake build`)

The inputs are random.  Nothing of the project is executed: only str, int, json, re, os.path, configparser, decimal and itertools of
python, and the Lean definitions by `#eval`.  It is a check of the trusted base (that the model says what python does), no
proof."""
import configparser
import decimal
import fractions
import itertools
import json
import os.path
import random
import re
import subprocess
import sys
import tempfile

HERE = os.path.dirname(os.path.abspath(__file__))
LEAN = os.path.join(HERE, '..', 'lean')

HARNESS = r'''
import Verif.Model.Ini
import Verif.Model.DecStr
import Verif.Model.LoadCsv
import Verif.Model.OldCsv
import Verif.Model.Latex
import Verif.Model.Process
import Verif.Model.Rounded
open PiCF PiCF.Hashtable

def enc (s : Str) : String := "s" ++ ".".intercalate (s.map fun c => toString c.toNat)
def lst (l : List String) : String := "(" ++ ",".intercalate l ++ ")"
def dec (w : String) : Str := ((w.drop 1).toString.splitOn ".").filterMap fun (x : String) => x.toNat?.map Char.ofNat
def res {α : Type} (f : α → String) : Except PyErr α → String
  | .error _ => "E"
  | .ok x => f x
def opt {α : Type} (f : α → String) : Option α → String
  | none => "N"
  | some x => f x
def tf (b : Bool) : String := if b then "T" else "F"
def pair (p : Str × Str) : String := lst [enc p.1, enc p.2]

def pairs : List Str → List (Str × Str)
  | a :: b :: r => (a, b) :: pairs r
  | _ => []

def int (w : String) : ℤ := w.toInt?.getD 0

/-- `+kv` sets a key, `-k` deletes it if it is there. -/
def dictOp (d : Dict String String) (op : String) : Dict String String :=
  match op.toList with
  | ['+', k, v] => d.set (toString k) (toString v)
  | ['-', k] => if d.contains (toString k) then d.erase (toString k) else d
  | _ => d

def run : List String → String
  | "ini" :: [t] => res (fun ss => lst (ss.map fun s => lst (s.map pair))) (Ini.fileSections (dec t))
  | "interp" :: t :: sec => res enc (Config.interpolate (pairs (sec.map dec)) Config.maxDepth (dec t))
  | "beforeset" :: [t] => tf (Config.beforeSet (dec t))
  | "initext" :: name :: items => enc (Ini.iniText (dec name) (pairs (items.map dec)))
  | "json" :: [t] => res (fun v => enc v.repr) (Json.loads (dec t))
  | "format" :: t :: args => res enc (PyStr.format (dec t) (args.map dec))
  | "split" :: [t] => pair (Path.split (dec t))
  | "splitext" :: [t] => pair (Path.splitext (dec t))
  | "join" :: [a, b] => enc (Path.join (dec a) (dec b))
  | "eng" :: [s, c, e] => enc (DecStr.Dec.eng ⟨s == "1", c.toNat?.getD 0, e.toInt?.getD 0⟩)
  | "int" :: [t] => res (fun n => toString n) (Config.intParser (dec t))
  | "strint" :: [n] => enc (PyStr.strInt (n.toInt?.getD 0))
  | "strip" :: [t] => enc (Config.strip (dec t))
  | "lower" :: [t] => enc (Config.lower (dec t))
  | "pkl" :: [t] => tf (Config.occurs Config.atPkl (dec t))
  | "vpkl" :: [t] => tf (Config.occurs (fun u => (Config.versionPkl u).isSome) (dec t))
  | "stripv" :: [t] => enc (Config.stripVersion (dec t))
  | "isv" :: [a, b] => tf (Config.isVersion (dec a) (dec b))
  | "findv" :: [t] => res pair (Config.findVersion (dec t))
  | "sort" :: l => lst ((Config.sortStr (l.map dec)).map enc)
  | "triples" :: [t] => lst ((Process.findTriples 0 (dec t)).map fun p => lst (p.map toString))
  | "decimal" :: [t] => tf (Process.isDecimalText (dec t))
  | "pysplit" :: [sep, t] => lst ((Process.split (dec sep) (dec t)).map enc)
  | "stripc" :: [c, t] => enc (Process.stripChar ((dec c).headD 'x') (dec t))
  | "replace" :: [a, b, t] => enc (Process.replaceAll (dec a) (dec b) 0 (dec t))
  | "remove" :: [a, t] => enc (Latex.removeAll (dec a) 0 (dec t))
  | "slice" :: n :: l => lst (sliceTo l (int n))
  | "range" :: [a, b, c] => res (fun l => lst (l.map toString)) (Lhs.pyRange3 (int a) (int b) (int c))
  | "product" :: l => lst ((EnumPoly.product (l.map fun w => w.toList.map toString)).map lst)
  | "comb" :: k :: l => lst ((EnumPoly.combinations l (k.toNat?.getD 0)).map lst)
  | "combwr" :: k :: l => lst ((EnumPoly.combinationsWR l (k.toNat?.getD 0)).map lst)
  | "group" :: n :: l => lst ((Utils.grouper l (n.toNat?.getD 0) "-").map lst)
  | "round" :: [a, b] => toString (Rounded.roundEven ((int a : ℚ) / (int b : ℚ)))
  | "float" :: [a, b] => match Rounded.roundBin 53 ((int a : ℚ) / (int b : ℚ)) with
    | q => toString q.num ++ "/" ++ toString q.den
  | "dict" :: ops => match ops.foldl dictOp ([] : Dict String String) with
    | d => lst (d.map fun p => p.1 ++ ":" ++ p.2)
  | "csvstrip" :: [t] => enc (Process.pdfPath (dec t))
  | l => "?" ++ toString l

#eval do
  for l in (← IO.FS.lines "%s") do
    IO.println (run (l.splitOn " "))
'''


def enc(s):
    return 's' + '.'.join(str(ord(c)) for c in s)


def lst(l):
    return '(' + ','.join(l) + ')'


def tf(b):
    return 'T' if b else 'F'


def attempt(f, *errors):
    try:
        return f()
    except errors:
        return 'E'


def pick(parts, n, sep=''):
    return sep.join(random.choice(parts) for _ in range(random.randint(0, n)))


# ---------------------------------------------------------------- configuration files

LINES = ['[B]', '[DEFAULT]', '[A]]', '[ A ]', '[A]', '[]', '[A', 'x=1', 'X = 2', 'y: 3', '  z=4', 'y', '  cont', '\t tab', '', '   ', '; c',
         '# c', '  ; c', 'x=', '=5', ':6', 'a b = c = d', 'k==v', 'u = [1,', '  2]', 'w:=7', ' [C]', 'q = a ; b', '[D] # t', 'n =  trail  ',
         '   [E]', 'x\x0b=1', 'p=1\x0c', '[[F]]', 'DEFAULT=3', '%x=%%', 'hashtable_file=a_v1.pkl', '   # x = 4']
COMMON = ('[A]', '[]', '[A', '=5', ':6', 'y', 'x=', 'X = 2', '[A]]', 'x\x0b=1', '[]')


def ini():
    rare = random.random() < 0.3
    ls = random.sample([l for l in LINES if rare or l not in COMMON], random.randint(1, 9))
    if random.random() < 0.85:
        ls.insert(0, random.choice(['[A]', '[A]', '[DEFAULT]', '; hello']))
    t = '\n'.join(ls) + random.choice(['', '\n'])

    def ref():
        p = configparser.ConfigParser()
        p.read_string(t)
        return lst(lst(lst([enc(o), enc(p.get(s, o, raw=True))]) for o in p.options(s)) for s in p.sections())
    return [enc(t)], attempt(ref, configparser.Error)


def interp():
    names = ['a', 'b', 'c', 'd']
    parts = ['%%', '%(a)s', '%(B)s', '%(c)s', 'x', '%', '%(zz)s', '%()s', '%(a)', ' ', '(', 's']
    weights = [3, 4, 4, 4, 6, 1, 1, 1, 1, 3, 1, 1]
    sec = {n: ''.join(random.choices(parts, weights, k=random.randint(0, 3))) for n in random.sample(names, random.randint(1, 4))}
    if random.random() < 0.2:
        n = random.randint(8, 12)
        sec = {'a': '%(a1)s'}
        for i in range(1, n):
            sec['a%d' % i] = '%%(a%d)s' % (i + 1)
        sec['a%d' % n] = random.choice(['end', '%%'])
    key = random.choice(list(sec))

    def ref():
        p = configparser.ConfigParser()
        p.read_dict({'S': {}})
        for k, v in sec.items():
            p._sections['S'][k] = v
        return enc(p.get('S', key))
    return [enc(sec[key])] + [enc(x) for k, v in sec.items() for x in (k, v)], attempt(ref, configparser.Error)


def beforeset():
    t = pick(['%%', '%(a)s', '%', '(', ')s', 'x', '%()s', '%(b)'], 5)

    def ref():
        p = configparser.ConfigParser()
        p.add_section('S')
        p.set('S', 'o', t)
        return 'T'
    r = attempt(ref, ValueError)
    return [enc(t)], 'F' if r == 'E' else r


def initext():
    items = {n: pick(['1', ' ', 'x', '[2]', '\n', ';', '"y"', '\t'], 5) for n in random.sample(['a', 'b', 'long_name', 'zz'], random.randint(0, 4))}
    import io
    p = configparser.RawConfigParser()
    p.add_section('Setup')
    for k, v in items.items():
        p.set('Setup', k, v)
    f = io.StringIO()
    p.write(f)
    return [enc('Setup')] + [enc(x) for k, v in items.items() for x in (k, v)], enc(f.getvalue())


# ---------------------------------------------------------------- texts

def json_value(depth):
    r = random.random()
    if depth > 0 and r < 0.5:
        return [json_value(depth - 1) for _ in range(random.randint(0, 3))]
    return random.choice([None, True, False, 0, -1, 12, -305, 'ab', '', 'lambda x: x**2', 7 ** 30])


def json_():
    t = json.dumps(json_value(3), separators=random.choice([(',', ':'), (', ', ': '), (' , ', ': ')]))
    t = random.choice(['', ' ', '\n\t']) + t + random.choice(['', ' ', '\r\n'])
    if random.random() < 0.4:
        i = random.randint(0, len(t))
        t = t[:i] + random.choice([',', '[', ']', '"', '0', '-', 't', ' ', '+', 'N', '\x01']) + t[i + random.randint(0, 1):]
    if random.random() < 0.1:
        t = random.choice(['', '-', '--1', '01', '-0', 'nul', 'nulll', '[1 2]', '[,]', '1]', '"a', '\x0b1', 'true false', '[', '[[]'])

    def ref():
        v = json.loads(t)
        return enc(repr(v))
    return [enc(t)], attempt(ref, json.JSONDecodeError)


def format_():
    t = pick(['{0}', '{1}', '{2}', '{{', '}}', 'a', ' + \\frac', '{', '}', '{10}', '\\'], 6) if random.random() < 0.3 else \
        pick(['{0}', '{1}', '{{', '}}', 'a', '^', '{{ {1} }}'], 6)
    if '{}' in t.replace('{{', '').replace('}}', '') or '{}' in t.replace('{{}}', ''):
        t = '{{}}'              # automatic numbering is not used in the project and not modelled
    args = [random.choice(['x', '-3', '{0}', '\\pi', '']) for _ in range(random.randint(1, 3))]
    return [enc(t)] + [enc(a) for a in args], attempt(lambda: enc(t.format(*args)), ValueError, IndexError, KeyError)


def path():
    return pick(['a', 'b.c', '.', '/', '/', '..', 'x_v1.pkl', '.rc', ' '], 6)


def split_():
    t = path()
    return [enc(t)], lst(map(enc, os.path.split(t)))


def splitext():
    t = path()
    return [enc(t)], lst(map(enc, os.path.splitext(t)))


def join_():
    a, b = path(), path()
    return [enc(a), enc(b)], enc(os.path.join(a, b))


def eng():
    s = random.randint(0, 1)
    c = random.choice([0, random.randint(0, 9), random.randint(0, 10 ** random.randint(1, 25))])
    e = random.choice([0, random.randint(-30, 5), random.randint(-9, 1)])
    d = decimal.Decimal((s, tuple(int(x) for x in str(c)), e))
    return [str(s), str(c), str(e)], enc(d.to_eng_string())


def int_():
    t = pick(['1', '0', '23', '_', '-', '+', ' ', '\t', 'x', '.'], 5) if random.random() < 0.5 else \
        random.choice(['', ' ', '-', '+']) + str(random.randint(0, 10 ** 12)) + random.choice(['', '\n', '_1', '__1', '_'])
    return [enc(t)], attempt(lambda: str(int(t)), ValueError)


def strint():
    n = random.choice([0, 1, -1]) * random.randint(0, 10 ** random.randint(1, 40))
    return [str(n)], enc(str(n))


WORDS = [' ', '\t', '\n', 'a', 'B', 'Z', '_', '9', '\x0b', '\x0c', '\r', '\x1c', '\x1d', '\x1e', '\x1f', '.', 'é']


def strip():
    t = pick(WORDS, 8)
    return [enc(t)], enc(t.strip())


def lower():
    t = pick([w for w in WORDS if ord(w) < 128] + ['GHI', 'mnO'], 8)
    return [enc(t)], enc(t.lower())


NAMES = ['hash', '_v', '1', '2', '10', '.', '.pkl', '_v1.pkl', '_v1.', 'pkl', '_', 'v', 'a']


def name():
    return pick(NAMES, 6)


def pkl():
    t = name()
    return [enc(t)], tf(re.match('(.*?)(\\.pkl)', t))


def vpkl():
    t = name()
    return [enc(t)], tf(re.match('(.*?)(_v[0-9]+)(\\.pkl)', t))


def stripv():
    t = name()
    return [enc(t)], enc(re.split('_v[0-9]+\\.pkl$', t)[0])


def isv():
    stem = pick(['hash', '_v', '1', '.', 'a', '_'], 3)
    t = random.choice([stem, stem.replace('.', 'x'), '']) + name()
    return [enc(stem), enc(t)], tf(re.match('(%s)(_v[0-9.]+)?(\\.pkl)' % stem, t))


def findv():
    t = name()

    def ref():
        b, v, _ = re.findall('(.*?)(_v[0-9.]+)?(\\.pkl)', t)[0]
        return lst([enc(b), enc(v.replace('_v', ''))])
    return [enc(t)], attempt(ref, IndexError)


def sort():
    l = [pick(['a', 'B', '_', '1', '2', '.'], 4) for _ in range(random.randint(1, 6))]
    return [enc(x) for x in l], lst(map(enc, sorted(l)))


def triples():
    t = pick(['[1, 2, 3]', '[1,2,3]', '[-1, 20,-3]', '[', ']', ',', ' ', '4', '-', '[1,  2, 3]', '[1, 2]', '[5, 6, 7'], 6)
    r = re.findall('\\[(\\-?[0-9]+), ?(\\-?[0-9]+), ?(\\-?[0-9]+)\\]', t)
    return [enc(t)], lst(lst(str(int(x)) for x in p) for p in r)


def decimal_():
    t = pick(['1', '23', '-', '.', ' ', 'x', '0'], 5)
    return [enc(t)], tf(re.match('^\\-?[0-9]+(\\.[0-9]+)?$', t))


def pysplit():
    sep = random.choice([',', ', ', '->', 'aa', ';;'])
    t = pick([sep, sep, 'a', ' ', ',', ';', '-', '>'], 8)
    return [enc(sep), enc(t)], lst(map(enc, t.split(sep)))


def stripc():
    c = random.choice(['"', "'", '(', ' '])
    t = pick([c, c, 'a', ' ', '"'], 6)
    return [enc(c), enc(t)], enc(t.strip(c))


def replace():
    a, b = random.choice([('(', '['), (',)', ']'), ('aa', 'b'), ('ab', ''), ('aba', 'ab')])
    t = pick([a, 'a', 'b', ',', ')', '('], 8)
    return [enc(a), enc(b), enc(t)], enc(t.replace(a, b))


def remove():
    a = random.choice(['x^0', 'aa', 'aba', '\\pi^0'])
    t = pick([a, 'a', 'b', 'x', '^0', '10', '\\pi'], 8)
    return [enc(a), enc(t)], enc(t.replace(a, ''))


def csvstrip():
    t = pick(['.csv', 'results', 'c', 's', 'v', '.', '/', 'x'], 6)
    return [enc(t)], enc(t.strip('.csv'))


# ---------------------------------------------------------------- lists and numbers

def letters(n):
    return [random.choice('abcdef') for _ in range(random.randint(0, n))]


def slice_():
    l, n = letters(6), random.randint(-8, 8)
    return [str(n)] + l, lst(l[:n])


def range_():
    a, b, c = (random.randint(-12, 12) for _ in range(3))
    return [str(a), str(b), str(c)], attempt(lambda: lst(map(str, range(a, b, c))), ValueError)


def product():
    ls = [letters(3) or ['a'] for _ in range(random.randint(0, 4))]
    return [''.join(l) for l in ls], lst(map(lst, itertools.product(*ls)))


def comb():
    l, k = letters(6), random.randint(0, 7)
    return [str(k)] + l, lst(map(lst, itertools.combinations(l, k)))


def combwr():
    l, k = letters(4), random.randint(0, 4)
    return [str(k)] + l, lst(map(lst, itertools.combinations_with_replacement(l, k)))


def group():
    l, n = letters(9), random.randint(0, 5)
    return [str(n)] + l, lst(map(lst, itertools.zip_longest(*[iter(l)] * n, fillvalue='-')))


def fraction():
    m = random.randint(1, 60)
    a, b = random.randint(-2 ** m, 2 ** m), random.randint(1, 2 ** random.randint(1, 60))
    if random.random() < 0.4:
        b = 2 ** random.randint(0, 4)
        a = random.choice([1, -1]) * (random.randint(0, 2 ** m) * 2 + 1)
    if random.random() < 0.2:
        a = random.choice([1, -1]) * (2 * random.randint(2 ** 52, 2 ** 53) + random.randint(0, 1))
    return a, b


def round_():
    a, b = fraction()
    return [str(a), str(b)], str(round(fractions.Fraction(a, b)))


def float_():
    a, b = fraction()
    return [str(a), str(b)], '%d/%d' % float(fractions.Fraction(a, b)).as_integer_ratio()


def dict_():
    ops = [random.choice(['+', '+', '-']) + random.choice('abcde') for _ in range(random.randint(0, 12))]
    ops = [o + random.choice('123') if o[0] == '+' else o for o in ops]
    d = {}
    for o in ops:
        if o[0] == '+':
            d[o[1]] = o[2]
        elif o[1] in d:
            del d[o[1]]
    return ops, lst(k + ':' + v for k, v in d.items())


TESTS = {'ini': ini, 'interp': interp, 'beforeset': beforeset, 'initext': initext, 'json': json_, 'format': format_, 'split': split_,
         'splitext': splitext, 'join': join_, 'eng': eng, 'int': int_, 'strint': strint, 'strip': strip, 'lower': lower, 'pkl': pkl,
         'vpkl': vpkl, 'stripv': stripv, 'isv': isv, 'findv': findv, 'sort': sort, 'triples': triples, 'decimal': decimal_,
         'pysplit': pysplit, 'stripc': stripc, 'replace': replace, 'remove': remove, 'csvstrip': csvstrip, 'slice': slice_,
         'range': range_, 'product': product, 'comb': comb, 'combwr': combwr, 'group': group, 'round': round_, 'float': float_, 'dict': dict_}


def main(seed='1', count=500):
    random.seed(int(seed))
    cases = []
    for kind, f in TESTS.items():
        for _ in range(count):
            args, expected = f()
            cases.append((kind, args, expected))
    with tempfile.TemporaryDirectory() as d:
        inputs, lean = os.path.join(d, 'cases.txt'), os.path.join(d, 'Harness.lean')
        with open(inputs, 'w') as f:
            f.write('\n'.join(' '.join([k] + a) for k, a, _ in cases) + '\n')
        with open(lean, 'w') as f:
            f.write(HARNESS % inputs)
        r = subprocess.run(['lake', 'env', 'lean', lean], cwd=LEAN, capture_output=True, text=True)
    out = r.stdout.strip('\n').split('\n')
    if len(out) != len(cases):
        print(r.stdout[:2000], r.stderr[:2000])
        return 1
    bad, errors = {}, {}
    for (kind, args, expected), got in zip(cases, out):
        errors[kind] = errors.get(kind, 0) + (expected in ('E', 'F'))
        if got != expected:
            bad.setdefault(kind, []).append((args, expected, got))
    for kind in TESTS:
        print('%-10s %d cases (%d exceptions or negative answers), %d differences' % (kind, count, errors[kind], len(bad.get(kind, []))))
        for args, expected, got in bad.get(kind, [])[:3]:
            show = [''.join(chr(int(c)) for c in a[1:].split('.') if c) if a.startswith('s') else a for a in args]
            print('   ', show, 'python', expected, 'model', got)
    return 1 if bad else 0


if __name__ == '__main__':
    sys.exit(main(*sys.argv[1:2]))
