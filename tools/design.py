#!/usr/bin/env python3
"""Writes DESIGN.md from design_text.py, properties.jsonl, MANIFEST.json and tools/axioms.json (made by tools/axioms.py)."""
import json,os,sys
R=os.path.dirname(os.path.dirname(os.path.abspath(__file__)))
sys.path.insert(0,R+'/tools')
from design_text import HEAD,FINDINGS,TAIL
P=[json.loads(l) for l in open(R+'/properties.jsonl')]
M={c['property']:c for c in json.load(open(R+'/MANIFEST.json'))['claims']}
ax=json.load(open(R+'/tools/axioms.json'))
o=HEAD
for k,t in FINDINGS: o+=f'* **{k}.** {t}\n'
o+=TAIL
o+='\n## 5. Properties\n\n| Id | Property | Status | Modelled and proved |\n|---|---|---|---|\n'
for p in P:
    c=M.get(p['id'])
    ths=', '.join('`'+t+'`' for t in c['theorems']) if c else ''
    o+=f"| {p['id']} | {p['title']} | {c['status'] if c else 'open'} | {c['note'] if c else ''} Theorems: {ths} |\n"
o+='\n## 6. Axioms of each theorem\n\nAs printed by `#print axioms`.\n\n'
g={}
for n,a in ax.items(): g.setdefault(tuple(a),[]).append(n)
for a in sorted(g,key=len):
    o+=f"* {', '.join('`'+x+'`' for x in a) if a else 'none'}: "+', '.join('`'+n+'`' for n in sorted(g[a]))+'\n'
o+='\n## 7. Wrong programs\n\n`seeded/LOG.jsonl` records every edit of the model that was tried, the theorems that failed and the theorems that were tightened or added because an edit survived.\n'
open(R+'/DESIGN.md','w').write(o)
print(len(o))
