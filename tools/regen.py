"""Regenerate lean/Verif.lean (imports of all modules) and MANIFEST.json.

MANIFEST.json: theorem names are collected from lean/Verif/Props by their
property prefix; the status is read from STATUS below and notes from NOTES."""
import re, json, pathlib, sys
root = pathlib.Path('/verif')
mods = sorted(p.relative_to(root/'lean').with_suffix('') for p in (root/'lean/Verif').rglob('*.lean'))
(root/'lean/Verif.lean').write_text(''.join('import ' + '.'.join(m.parts) + '\n' for m in mods))
thms = {}
for p in sorted((root/'lean/Verif/Props').rglob('*.lean')):
    txt = p.read_text()
    for m in re.finditer(r'^(?:theorem|lemma) ((C\d\d\d?)_\S+)', txt, re.M):
        thms.setdefault(m.group(2), []).append('LRVB.' + m.group(1))
meta = json.loads((root/'tools/status.json').read_text())
claims = []
for line in (root/'properties.jsonl').read_text().splitlines():
    pid = json.loads(line)['id']
    m = meta.get(pid, {})
    ts = thms.get(pid, [])
    if not ts and m.get('status') != 'not_applicable':
        continue
    st = m.get('status') or ('partial' if any(t.endswith('_partial') for t in ts) else 'proved')
    claims.append({'property': pid, 'status': st, 'theorems': ts, 'note': m.get('note', '')})
(root/'MANIFEST.json').write_text(json.dumps({'claims': claims}, indent=1) + '\n')
print(len(claims), 'claims', sum(len(c['theorems']) for c in claims), 'theorems')
