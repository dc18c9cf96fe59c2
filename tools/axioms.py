import json,subprocess,re
m=json.load(open('/verif/MANIFEST.json'))
names=[]
for c in m['claims']:
    for t in c['theorems']:
        if t not in names: names.append(t)
open('/tmp/ax/A.lean','w').write('import Verif\n'+'\n'.join('#print axioms '+n for n in names))
r=subprocess.run('lake env lean /tmp/ax/A.lean',shell=True,cwd='/verif/lean',capture_output=True,text=True).stdout
r=re.sub(r'\s+',' ',r)
ax={}
for mm in re.finditer(r"'([^']+(?:'[^' ]*)*)' (depends on axioms: \[([^\]]*)\]|does not depend on any axioms)",r):
    ax[mm.group(1)]=sorted(a.strip() for a in (mm.group(3) or '').split(',') if a.strip())
json.dump(ax,open('/verif/tools/axioms.json','w'))
import collections
print(len(names),len(ax),collections.Counter(tuple(v) for v in ax.values()))
print([n for n in names if n not in ax])
