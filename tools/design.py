"""Writes DESIGN.md from the plan lines below, MANIFEST.json, notes.py and axioms.json."""
import json, re, os
old = open('/verif/tools/plan.txt').read()
plan = dict(re.findall(r'^\* \*\*(C\d+) [^*]*\*\* — (.*)$', old, re.M))
props = [json.loads(l) for l in open('/verif/properties.jsonl')]
man = {c['property']: c for c in json.load(open('/verif/MANIFEST.json'))['claims']}
ax = json.load(open('/verif/tools/axioms.json'))
head = open('/verif/tools/design_head.md').read()
tail = open('/verif/tools/design_tail.md').read()
L = [head, '\n## Properties\n',
     'For every property: what is modelled and how it is proved, the status, and what the proof leaves out or refutes.\n']
for p in props:
    c = man[p['id']]
    topic = sorted({t.split('.')[1] for t in c['theorems']})
    dirs = ', '.join('`%s/`' % {'NodeRange': 'Range'}.get(t, t) for t in topic)
    L.append(f"* **{p['id']} {p['title']}** ({c['status']}; {dirs}) — {plan.get(p['id'], '')} {c['note']}".rstrip())
L.append(tail)
L.append('\n## Axioms of every theorem\n')
L.append('From `#print axioms` (`tools/axioms.py`). P = propext, C = Classical.choice, Q = Quot.sound, – = none.\n')
S = {'propext': 'P', 'Classical.choice': 'C', 'Quot.sound': 'Q'}
for p in props:
    c = man[p['id']]
    L.append('* ' + p['id'] + ': ' + ', '.join(
        f"`{t.rsplit('.', 1)[1]}` ({''.join(S.get(a, a) for a in ax.get(t, ['?'])) or '–'})" for t in c['theorems']))
open('/verif/DESIGN.md', 'w').write('\n'.join(L) + '\n')
