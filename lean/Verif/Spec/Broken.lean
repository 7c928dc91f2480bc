/- Files that cannot be read. -/
import Verif.Spec.RungsKept

set_option autoImplicit false

namespace Hiera.Spec

open Value

/-- The files of all levels in order, each with its level. -/
def filesIn (E : Env) (sc : Scope) (rs : List Rung) : List (Rung × Str) := rs.flatMap (fun r => (r.files E sc).map (fun f => (r, f)))

/-- A file that is there is of no use, and what is wrong with it: it cannot be read, or it is something else than a hash. -/
inductive Broken (E : Env) (r : Rung) (f : Str) : Err → Prop
  | unread {e : Err} : E.stat f = true → r.content E f = .err e → Broken E r f e
  | notHash {v : Value} : E.stat f = true → r.content E f = .value v → (∀ es, v ≠ .map es) → Broken E r f (.notHash f)

/-- A file is not there, or it is a hash, and lookup options in it have no expressions. -/
def UsableFile (E : Env) (r : Rung) (f : Str) : Prop :=
  E.stat f = true → r.content E f = .missing ∨
    ∃ es, r.content E f = .value (.map es) ∧ ∀ v, Entries.getS es "lookup_options".toList = some v → Unmarked v

end Hiera.Spec
