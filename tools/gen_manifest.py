"""Writes MANIFEST.json.  Theorem names are collected from lean/Verif/Props by their Cxx_ prefix."""
import json, re, glob, os
root = os.path.dirname(os.path.dirname(os.path.abspath(__file__)))
thms = {}
for p in sorted(glob.glob(root + '/lean/Verif/Props/*.lean')):
    ns = 'Qlc'
    for m in re.finditer(r'^theorem (C\d+_\w+)', open(p).read(), re.M):
        thms.setdefault(m.group(1).split('_')[0], []).append('Qlc.' + m.group(1))
notes = json.load(open(root + '/tools/notes.json'))
claims = []
for line in open(root + '/properties.jsonl'):
    cid = json.loads(line)['id']
    ts = thms.get(cid, [])
    n = notes.get(cid, {})
    status = n.get('status') or ('partial' if (not ts or any(t.endswith('_partial') for t in ts)) else 'proved')
    claims.append({'property': cid, 'status': status, 'theorems': ts,
                   'note': n.get('note', '') if ts else 'not proved yet'})
json.dump({'claims': claims}, open(root + '/MANIFEST.json', 'w'), indent=1)
print(sum(c['status'] == 'proved' for c in claims), 'proved of', len(claims))
