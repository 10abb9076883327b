"""Writes tools/axioms.json: the axioms of every theorem in MANIFEST.json. Needs a built project."""
import json, re, subprocess
T = [t for c in json.load(open('/verif/MANIFEST.json'))['claims'] for t in c['theorems']]
src = "import Verif\n" + "".join(f"#print axioms {t}\n" for t in T)
open('/tmp/axioms.lean', 'w').write(src)
out = subprocess.run(['lake', 'env', 'lean', '/tmp/axioms.lean'], cwd='/verif/lean', capture_output=True, text=True).stdout
out = re.sub(r'\n\s+', ' ', out)
ax = {}
for m in re.finditer(r"'(\S+)' (?:depends on axioms: \[(.*?)\]|does not depend on any axioms)", out):
    ax[m.group(1)] = sorted(x.strip() for x in (m.group(2) or '').split(',') if x.strip())
print(len(T), len(ax), {tuple(v) for v in ax.values()})
missing = [t for t in T if t not in ax]
print('missing', missing)
json.dump(ax, open('/verif/tools/axioms.json', 'w'), indent=0, sort_keys=True)
