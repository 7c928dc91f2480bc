/- Hierarchies of which some levels have nothing for a key. -/
import Verif.Spec.RungsKept

set_option autoImplicit false

namespace Hiera.Spec

/-- All files of a level that are there can be read, and none of them has the key. -/
def WithoutKey (E : Env) (sc : Scope) (q : Str) (r : Rung) : Prop :=
  ∀ f ∈ r.files E sc, E.stat f = true → r.content E f = .missing ∨ ∃ es, r.content E f = .value (.map es) ∧ Entries.getS es q = none

/-- The levels of two set-ups stand for files that have the same, one by one, apart from levels that do not have the key. -/
inductive SameLevelsFor (E E' : Env) (sc : Scope) (q : Str) : List Rung → List Rung → Prop
  | nil : SameLevelsFor E E' sc q [] []
  | both {r r' : Rung} {rs rs' : List Rung} : SameFiles E E' sc r r' → SameLevelsFor E E' sc q rs rs' → SameLevelsFor E E' sc q (r :: rs) (r' :: rs')
  | fewer {r : Rung} {rs rs' : List Rung} : WithoutKey E sc q r → SameLevelsFor E E' sc q rs rs' → SameLevelsFor E E' sc q (r :: rs) rs'
  | more {r' : Rung} {rs rs' : List Rung} : WithoutKey E' sc q r' → SameLevelsFor E E' sc q rs rs' → SameLevelsFor E E' sc q rs (r' :: rs')

/-- No key is in files of two of the levels. -/
def NoKeyTwice (E : Env) (sc : Scope) (rs : List Rung) : Prop := rs.Pairwise (fun r r' => ∀ q, WithoutKey E sc q r ∨ WithoutKey E sc q r')

end Hiera.Spec
