/- Hierarchies whose levels stand for files that have the same data. -/
import Verif.Spec.Rungs
import Verif.Spec.Kept

set_option autoImplicit false

namespace Hiera.Spec

/-- What is in a file, as a level reads it. -/
def Rung.content (E : Env) (r : Rung) (file : Str) : FileRes := if r.json then E.readJson file else E.readYaml file

/-- Two files that levels of two set-ups stand for have the same: it is one file, which is read in the same way; or neither is there;
or both are there and have the same for all keys, in whatever order and however expressions are written. -/
inductive SameFile (E E' : Env) (r r' : Rung) : Str → Str → Prop
  | one {f : Str} : E'.stat f = E.stat f → r'.content E' f = r.content E f → SameFile E E' r r' f f
  | absent {f f' : Str} : E.stat f = false → E'.stat f' = false → SameFile E E' r r' f f'
  | copy {f f' : Str} {es es' : Entries} : E.stat f = true → E'.stat f' = true → r.content E f = .value (.map es) →
      r'.content E' f' = .value (.map es') → (∀ q, Option.Rel Respelled (Entries.getS es q) (Entries.getS es' q)) → SameFile E E' r r' f f'

/-- Two lists of files have the same, one by one, apart from files that are not there. -/
inductive SameFileLists (E E' : Env) (r r' : Rung) : List Str → List Str → Prop
  | nil : SameFileLists E E' r r' [] []
  | both {f f' : Str} {fs fs' : List Str} : SameFile E E' r r' f f' → SameFileLists E E' r r' fs fs' → SameFileLists E E' r r' (f :: fs) (f' :: fs')
  | fewer {f : Str} {fs fs' : List Str} : E.stat f = false → SameFileLists E E' r r' fs fs' → SameFileLists E E' r r' (f :: fs) fs'
  | more {f' : Str} {fs fs' : List Str} : E'.stat f' = false → SameFileLists E E' r r' fs fs' → SameFileLists E E' r r' fs (f' :: fs')

/-- Two levels stand for files that have the same, and both or neither stand for one only. -/
structure SameFiles (E E' : Env) (sc : Scope) (r r' : Rung) : Prop where
  one : (r.files E sc).length = 1 ↔ (r'.files E' sc).length = 1
  same : SameFileLists E E' r r' (r.files E sc) (r'.files E' sc)

/-- No file that a level stands for is there. -/
def Bare (E : Env) (sc : Scope) (r : Rung) : Prop := ∀ f ∈ r.files E sc, E.stat f = false

/-- The levels of two set-ups stand for files that have the same, one by one, apart from levels without any file. -/
inductive SameLevels (E E' : Env) (sc : Scope) : List Rung → List Rung → Prop
  | nil : SameLevels E E' sc [] []
  | both {r r' : Rung} {rs rs' : List Rung} : SameFiles E E' sc r r' → SameLevels E E' sc rs rs' → SameLevels E E' sc (r :: rs) (r' :: rs')
  | fewer {r : Rung} {rs rs' : List Rung} : Bare E sc r → SameLevels E E' sc rs rs' → SameLevels E E' sc (r :: rs) rs'
  | more {r' : Rung} {rs rs' : List Rung} : Bare E' sc r' → SameLevels E E' sc rs rs' → SameLevels E E' sc rs (r' :: rs')

end Hiera.Spec
