"""Generate lean/Verif/Mapping/Data.lean: the mapping tables of all MappingElement
classes and the class lists of all head_mapping() calls, read from the source text
(with the ast module; the code is not run)."""
import ast, os
R = '/repo/quickly/'
FILES = ['dom/element.py', 'dom/base.py', 'dom/lily.py', 'dom/tex.py', 'dom/scm.py', 'dom/htm.py', 'dom/markup.py']
classes = {}
for f in FILES:
    if not os.path.exists(R + f):
        continue
    mod = f.split('/')[-1][:-3]
    for n in ast.parse(open(R + f).read()).body:
        if isinstance(n, ast.ClassDef):
            bases = [ast.unparse(b) for b in n.bases]
            bases = [b if '.' in b else mod + '.' + b for b in bases]
            body = {}
            for s in n.body:
                if isinstance(s, ast.Assign):
                    for t in s.targets:
                        if isinstance(t, ast.Name):
                            body[t.id] = s.value
            classes[mod + '.' + n.name] = (bases, body, n, f)

def mro(c):
    out = [c]
    for b in classes.get(c, ([],))[0]:
        for x in mro(b):
            if x in out:
                out.remove(x)
            out.append(x)
    return out

def attr(c, name):
    for k in mro(c):
        if k in classes and name in classes[k][1]:
            return classes[k][1][name]

def lean_head(v):
    if isinstance(v, str):
        return '.str ' + lean_str(v)
    if isinstance(v, (bool, int, float)):
        return '.num (%d)' % int(2 * v)
    if isinstance(v, tuple):
        return '.pair %s (%s)' % (lean_str(v[0]), lean_head(v[1]))
    raise ValueError(v)

def lean_str(s):
    return '"' + s.replace('\\', '\\\\').replace('"', '\\"') + '"'

def ident(c):
    m, n = c.split('.')
    return m + n

def table(c):
    m = mro(c)
    if 'lily.Spanner' in m:
        return [(ast.literal_eval(attr(c, 'spanner_start')), 'start'), (ast.literal_eval(attr(c, 'spanner_stop')), 'stop')]
    if 'element.ToggleElement' in m:
        return [(ast.literal_eval(attr(c, 'toggle_on')), True), (ast.literal_eval(attr(c, 'toggle_off')), False)]
    if c == 'lily.Toggle':
        t = []
        for p in ast.literal_eval(attr(c, 'props')):
            t += [('\\' + p + 'On', (p, True)), ('\\' + p + 'Off', (p, False))]
        return t
    return list(ast.literal_eval(attr(c, 'mapping')).items())

def lineno(c):
    n = classes[c][2]
    return 'quickly/%s L%d-%d' % (classes[c][3], n.lineno, n.end_lineno)

out = ['''import Verif.Mapping.Model

/-!
# The mapping tables

Generated by `tools/gen_mapping.py` from the source text.  `.num n` is the Python number
`n / 2` (so `.num 2` is 1 and also True: equal Python values are the same here).
-/

namespace Quickly.Mapping.Data
''']
maps = [c for c in classes if 'element.MappingElement' in mro(c)
        and c not in ('element.MappingElement', 'element.ToggleElement', 'lily.Spanner')]
for c in maps:
    out.append('/-- The `mapping` of `%s`, `%s`. -/' % (c, lineno(c)))
    out.append('def %s : Table := [' % ident(c))
    out.append(',\n'.join('  (%s, %s)' % (lean_str(k), lean_head(v)) for k, v in table(c)))
    out.append(']\n')
out.append('/-- All mapping element classes with their tables. -/')
out.append('def tables : List (String × Table) := [')
out.append(',\n'.join('  (%s, %s)' % (lean_str(c), ident(c)) for c in maps))
out.append(']\n')
calls = []
for f in ['lang/latex.py', 'lang/lilypond.py', 'lang/scheme.py', 'lang/html.py', 'lang/texinfo.py']:
    if not os.path.exists(R + f):
        continue
    for n in ast.walk(ast.parse(open(R + f).read())):
        if isinstance(n, ast.Assign) and isinstance(n.value, ast.Call) and ast.unparse(n.value.func).endswith('head_mapping'):
            calls.append((f, n.targets[0].id, n.lineno, n.end_lineno, [ast.unparse(a) for a in n.value.args]))
names = []
for f, name, a, b, cs in calls:
    nm = name.strip('_') .replace('_mapping', 'Types')
    nm = ''.join(w if i == 0 else w[:1].upper() + w[1:] for i, w in enumerate(nm.split('_')))
    names.append(nm)
    out.append('/-- The arguments of `%s = head_mapping(...)`, `quickly/%s` L%d-%d: per class its name\nand its texts (one head, or the keys of its mapping). -/' % (name, f, a, b))
    out.append('def %s : List Cls := [' % nm)
    items = []
    for c in cs:
        if 'element.MappingElement' in mro(c):
            items.append('  (%s, .mapping %s)' % (lean_str(c), ident(c)))
        else:
            assert 'element.HeadElement' in mro(c), c
            h = attr(c, 'head')
            assert h is not None, c
            items.append('  (%s, .head %s)' % (lean_str(c), lean_str(ast.literal_eval(h))))
    out.append(',\n'.join(items))
    out.append(']\n')
out.append('/-- All `head_mapping` calls. -/')
out.append('def headMappings : List (List Cls) := [' + ', '.join(names) + ']\n')
out.append('end Quickly.Mapping.Data')
open('/verif/lean/Verif/Mapping/Data.lean', 'w').write('\n'.join(out) + '\n')
print(len(maps), [(n, len(c[4])) for n, c in zip(names, calls)])
