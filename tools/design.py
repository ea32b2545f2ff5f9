"""Rewrites /verif/DESIGN.md from design_head.md, the per-property table below, MANIFEST.json and axioms.txt
(axioms.txt: one line `theorem: axioms` per manifest theorem, written by tools/axioms.sh)."""
import json, os
here = os.path.dirname(os.path.abspath(__file__))
root = os.path.dirname(here)
man = {c['property']: c for c in json.load(open(f'{root}/MANIFEST.json'))['claims']}
props = [json.loads(l) for l in open(f'{root}/properties.jsonl')]
how = json.load(open(f'{here}/how.json'))
out = [open(f'{here}/design_head.md').read().rstrip(), '', '## Per property', '']
for p in props:
    c = man.get(p['id'])
    m, h = how.get(p['id'], ['', ''])
    out.append(f"### {p['id']} {p['title']} — {c['status'] if c else 'open'}")
    out.append('')
    out.append(f"*Claim.* {p['statement']}")
    out.append('')
    if m: out.append(f"*Modelled.* {m}"); out.append('')
    if h: out.append(f"*Proof.* {h}"); out.append('')
    if c and c['note']: out.append(f"*Result.* {c['note'].rstrip('.')}."); out.append('')
    if c: out.append('*Theorems.* ' + ', '.join(f"`{t.removeprefix('Xmps.')}`" for t in c['theorems'])); out.append('')
ax = {}
for l in open(f'{here}/axioms.txt'):
    t, a = l.strip().split(': ', 1)
    ax.setdefault(a, []).append(t.removeprefix('Xmps.'))
out += ['## Appendix: axioms of each theorem in the manifest', '', 'Output of `#print axioms` (tools/axioms.sh), names without the prefix `Xmps.`.', '']
for a in sorted(ax, key=lambda a: -len(ax[a])):
    out += [f"**{a}** ({len(ax[a])}): " + ', '.join(f'`{t}`' for t in sorted(ax[a])), '']
open(f'{root}/DESIGN.md', 'w').write('\n'.join(out))
