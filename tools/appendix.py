#!/usr/bin/env python3
"""Rewrites the end of DESIGN.md: the source functions without a model, and the axioms of each theorem of MANIFEST.json.

Run in /verif after `lake build`; prints nothing. Needs the sources in /repo (read only)."""
import glob, json, re, subprocess, tempfile

MARK = '<!-- generated by tools/appendix.py -->'
BASE = '/verif'

def cites():
    res = {}
    for f in glob.glob(BASE + '/lean/Verif/**/*.lean', recursive=True):
        for c in re.findall(r'/--.*?-/|/-!.*?-/', open(f).read(), re.S):
            for m in re.finditer(r'([\w/\-\.]+\.rs)(?::([\d,\-\s]+(?: and [\d\-]+)*))?', c):
                s = res.setdefault(m.group(1), (set(), set()))
                s[1].add(f[len(BASE + '/lean/'):])
                for a, b in re.findall(r'(\d+)(?:-(\d+))?', m.group(2) or ''):
                    s[0].update(range(int(a), int(b or a) + 1))
    return res

def functions(rel):
    lines = open('/repo/' + rel).read().split('\n')
    for k, l in enumerate(lines):
        if '#[cfg(test)]' in l:
            return
        m = re.match(r'\s*(pub )?(default )?fn (\w+)', l)
        if m and not (k > 0 and '#[test]' in lines[k - 1]):
            ind = len(l) - len(l.lstrip())
            e = k
            if not l.rstrip().endswith(';'):
                while e < len(lines) - 1 and not (lines[e].startswith(' ' * ind + '}') and len(lines[e].rstrip()) == ind + 1):
                    e += 1
            yield m.group(3), k + 1, e + 1

def sources():
    c = cites()
    out = []
    files = sorted(f[len('/repo/'):] for f in glob.glob('/repo/**/*.rs', recursive=True))
    for rel in files:
        if rel.startswith('tests/') or '/tests/' in rel or rel.endswith('tests.rs'):
            continue
        cov, where = set(), set()
        for p, (s, w) in c.items():
            if rel.endswith('/' + p) or rel == p or p.endswith(rel):
                cov |= s
                where |= {x for x in w if '/Model/' in x}
        fs = list(functions(rel))
        if not fs:
            continue
        bad = [f'`{n}` ({a}-{b})' for n, a, b in fs if len(cov & set(range(a, b + 1))) < 0.5 * (b - a + 1)]
        out.append((rel, len(fs), bad))
    return out

def axioms():
    m = json.load(open(BASE + '/MANIFEST.json'))
    names = [t for c in m['claims'] for t in c['theorems']]
    with tempfile.NamedTemporaryFile('w', suffix='.lean') as f:
        f.write('import Verif\n' + ''.join(f'#print axioms {n}\n' for n in names))
        f.flush()
        s = subprocess.run(['lake', 'env', 'lean', f.name], cwd=BASE + '/lean', capture_output=True, text=True).stdout
    d = {}
    for x in re.finditer(r"'([^' ]+)' (does not depend on any axioms|depends on axioms: \[([^\]]*)\])", s):
        d.setdefault(tuple(sorted(y.strip() for y in (x.group(3) or '').split(',') if y.strip())), []).append(x.group(1))
    assert sum(map(len, d.values())) == len(names)
    return d

t = open(BASE + '/DESIGN.md').read().split(MARK)[0].rstrip() + '\n\n' + MARK + '\n\n'
t += '## Functions of the source without a definition of their own in the model\n\n'
t += ('For each source file: the number of its functions, and those whose lines are not cited by a definition of the model. These are `Display` and `Debug` implementations '
      'that no property mentions, wrappers (iterators, constructors, setters, conversions) whose effect is part of the model of their callers, methods of `Reverse` and '
      '`GornTree` that forward to the inner type, the reading of options and files in `src/bin`, and code that is not compiled '
      '(`int_automaton.rs`, `relabel.rs` of PMCFGs, `try_debug.rs`, `src/bin/coarse_to_fine.rs`). All other functions have a model.\n\n')
for rel, n, bad in sources():
    t += f'* `{rel}`: {n}' + ('; without: ' + ', '.join(bad) if bad else '') + '\n'
t += '\n## Axioms of the theorems\n\n'
for k, v in sorted(axioms().items(), key=lambda x: len(x[0])):
    t += '* ' + (', '.join(f'`{a}`' for a in k) or 'no axioms') + ': ' + ', '.join(x.replace('Rustomata.Props.', '') for x in v) + '\n\n'
open(BASE + '/DESIGN.md', 'w').write(t.rstrip() + '\n')
