# Generates lean/Verif.lean: imports every module. Run: python3 tools/imports.py
import os
root = os.path.join(os.path.dirname(__file__), "..", "lean")
mods = []
for d in ["Model", "Spec", "Lemmas", "Props"]:
    for f in sorted(os.listdir(os.path.join(root, "Verif", d))):
        if f.endswith(".lean"):
            mods.append("import Verif.%s.%s\n" % (d, f[:-5]))
open(os.path.join(root, "Verif.lean"), "w").writelines(mods)
