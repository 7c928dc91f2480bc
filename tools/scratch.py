#!/usr/bin/env python3
"""Bring the scratch copy for tools/mutate.py up to date.

usage: scratch.py SCRATCH

SCRATCH is a copy of /verif/lean. Files that differ are copied anew. In the copy `decide +kernel` becomes `kdecide`, which
asks the kernel at once: of a false statement `decide +kernel` tries to print an explanation, which takes too much memory.
"""
import os, sys

scratch = sys.argv[1]
src = '/verif/lean/Verif'
keep = {'Props/ExplainData.lean'}  # a decide inside of a rewrite
for d, _, fs in os.walk(src):
    for f in fs:
        p = os.path.join(d, f)
        r = os.path.relpath(p, src)
        q = os.path.join(scratch, 'Verif', r)
        s = open(p).read()
        if 'decide +kernel' in s and r not in keep:
            s = s.replace('decide +kernel', 'kdecide')
            i = s.index('import ')
            s = s[:i] + 'import Verif.KD\n' + s[i:]
        if not os.path.exists(q) or open(q).read() != s:
            os.makedirs(os.path.dirname(q), exist_ok=True)
            open(q, 'w').write(s)
            print(r)
s = open('/verif/lean/Verif.lean').read()
q = os.path.join(scratch, 'Verif.lean')
if open(q).read() != s:
    open(q, 'w').write(s)
open(os.path.join(scratch, 'Verif', 'KD.lean'), 'w').write('''import Lean
open Lean Meta Elab Tactic
elab "kdecide" : tactic => liftMetaFinishingTactic fun g => do
  let t ← instantiateMVars (← g.getType)
  let i ← instantiateMVars (← synthInstance (mkApp (mkConst ``Decidable) t))
  let pf := mkApp3 (mkConst ``of_decide_eq_true) t i (mkApp2 (mkConst ``Eq.refl [1]) (mkConst ``Bool) (mkConst ``Bool.true))
  let lem ← mkAuxLemma [] t pf
  g.assign (mkConst lem)
''')
