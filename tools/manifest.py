"""Regenerate MANIFEST.json from the theorem names in lean/Verif and the notes below."""
import json, re, glob, os
root = os.path.dirname(os.path.dirname(os.path.abspath(__file__)))
props = [json.loads(l) for l in open(root + '/properties.jsonl')]
status = {}
notes = {}
exec(open(root + '/tools/notes.py').read())
thms = {}
for f in sorted(glob.glob(root + '/lean/Verif/**/*.lean', recursive=True)):
    ns = []
    for line in open(f):
        m = re.match(r'namespace (\S+)', line)
        if m: ns.append(m.group(1))
        m = re.match(r'end (\S+)', line)
        if m and ns and ns[-1] == m.group(1): ns.pop()
        m = re.match(r'theorem (C\d\d\d?_\w+)', line)
        if m:
            thms.setdefault(m.group(1).split('_')[0], []).append('.'.join(ns + [m.group(1)]))
claims = []
for p in props:
    i = p['id']
    t = thms.get(i, [])
    if not t and i not in status: continue
    st = status.get(i)
    if st is None:
        st = 'partial' if any(x.endswith('_partial') for x in t) else 'proved'
    claims.append({'property': i, 'status': st, 'theorems': t, 'note': notes.get(i, '')})
json.dump({'claims': claims}, open(root + '/MANIFEST.json', 'w'), indent=1, ensure_ascii=False)
print(len(claims), 'claims', sum(len(c['theorems']) for c in claims), 'theorems')
print('unclaimed:', [p['id'] for p in props if p['id'] not in {c['property'] for c in claims}])
