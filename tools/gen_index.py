"""Writes INDEX.md: for each property its theorems, where they are and the axioms they depend on.

Asks Lean for the axioms, so the project must be built."""
import json, re, glob, os, subprocess, tempfile
root = os.path.dirname(os.path.dirname(os.path.abspath(__file__)))
where = {}
for p in sorted(glob.glob(root + '/lean/Verif/Props/*.lean')):
    for i, l in enumerate(open(p), 1):
        m = re.match(r'theorem (C\d+_\w+)', l)
        if m:
            where['Qlc.' + m.group(1)] = 'Props/' + os.path.basename(p)
claims = json.load(open(root + '/MANIFEST.json'))['claims']
titles = {}
for line in open(root + '/properties.jsonl'):
    r = json.loads(line)
    titles[r['id']] = r['title']
names = [t for c in claims for t in c['theorems']]
with tempfile.NamedTemporaryFile('w', suffix='.lean', delete=False) as f:
    f.write('import Verif\n' + ''.join('#print axioms %s\n' % n for n in names))
out = subprocess.run(['lake', 'env', 'lean', f.name], cwd=root + '/lean', capture_output=True, text=True).stdout
os.unlink(f.name)
axioms = {}
for m in re.finditer(r"'(\S+)' (?:depends on axioms: \[([^\]]*)\]|does not depend on any axioms)", out):
    axioms[m.group(1)] = sorted(a.strip() for a in (m.group(2) or '').split(',') if a.strip())
assert set(names) == set(axioms), (set(names) ^ set(axioms))
allowed = {'propext': 'P', 'Classical.choice': 'C', 'Quot.sound': 'Q'}
assert all(a in allowed for v in axioms.values() for a in v)
with open(root + '/INDEX.md', 'w') as f:
    f.write('# Properties and theorems\n\nGenerated by `tools/gen_index.py`. The letters are the axioms a theorem depends '
            'on, as `#print axioms`\nprints them: P `propext`, C `Classical.choice`, Q `Quot.sound`. There are no others.\n')
    for c in claims:
        f.write('\n## %s %s\n\n' % (c['property'], titles[c['property']]))
        if c['note']:
            f.write(c['note'] + '\n\n')
        for t in c['theorems']:
            f.write('* `%s` in `%s`: %s\n' % (t[4:], where[t], ''.join(allowed[a] for a in
                    ['propext', 'Classical.choice', 'Quot.sound'] if a in axioms[t]) or 'none'))
print(len(names), 'theorems')
