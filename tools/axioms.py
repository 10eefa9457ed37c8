"""Print the axioms of every theorem named in MANIFEST.json and rewrite the section between the
AXIOMS markers of DESIGN.md. Run after `lake build`."""
import json, re, subprocess, tempfile

names = [t for c in json.load(open('/verif/MANIFEST.json'))['claims'] for t in c['theorems']]
with tempfile.NamedTemporaryFile('w', suffix='.lean', delete=False) as f:
    f.write('import Verif\n' + ''.join(f'#print axioms {n}\n' for n in names))
out = subprocess.run(['lake', 'env', 'lean', f.name], cwd='/verif/lean', capture_output=True,
                     text=True).stdout
groups = {}
for l in re.split(r"\n(?=')", out.strip()):
    m = re.match(r"'([\w.]+)' (.*)", l, re.S)
    a = m.group(2)
    key = 'none' if 'does not depend' in a else ', '.join(
        sorted(x.strip() for x in re.search(r'\[(.*)\]', a, re.S).group(1).split(',')))
    groups.setdefault(key, []).append(m.group(1).removeprefix('Lfest.'))
assert sum(map(len, groups.values())) == len(names)
lines = []
for k in sorted(groups, key=lambda k: -len(groups[k])):
    if k == 'Classical.choice, Quot.sound, propext':
        lines.append(f'* `{k}`: all others ({len(groups[k])} theorems)')
    else:
        lines.append(f'* `{k}` ({len(groups[k])}): ' + ', '.join(sorted(groups[k])))
d = open('/verif/DESIGN.md').read()
i = d.index('<!-- AXIOMS -->') + len('<!-- AXIOMS -->')
j = d.index('<!-- /AXIOMS -->')
open('/verif/DESIGN.md', 'w').write(d[:i] + '\n' + '\n'.join(lines) + '\n' + d[j:])
for k, v in groups.items():
    print(k, len(v))
