# make Verif.lean import every module, in dependency-agnostic order (Axioms last)
import glob
mods=[]
for f in sorted(glob.glob('/verif/lean/Verif/**/*.lean',recursive=True)):
    m=f[len('/verif/lean/'):-5].replace('/','.')
    mods.append(m)
mods.sort(key=lambda m:(m=='Verif.Axioms', '.Props.' in m, m))
open('/verif/lean/Verif.lean','w').write(''.join(f'import {m}\n' for m in mods))
