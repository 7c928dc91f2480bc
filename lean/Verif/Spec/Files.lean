/- Files that change while a session is used. -/
import Verif.Spec.History

set_option autoImplicit false

namespace Hiera.Spec

/-- What the files are, as far as configurations and data are concerned. -/
structure Files where
  stat : Str → Bool
  glob : Str → List Str
  readYaml : Str → FileRes
  readJson : Str → FileRes

/-- The same session, with other files. -/
def readingFiles (E : Env) (f : Files) : Env :=
  { E with stat := f.stat, glob := f.glob, readYaml := f.readYaml, readJson := f.readJson }

/-- `s` is the state after some lookups, with whatever results, from `s0`, where the files may be others for each lookup. -/
inductive Changing (E : Env) (s0 : St) : St → Prop
  | start : Changing E s0 s0
  | lookup {s t : St} {r : Res (Option Value)} (f : Files) (n : Nat) (k : Key) (opts : Entries) : Changing E s0 s →
      (eval (readingFiles E f) n).lookup k opts s = some (r, t) → Changing E s0 t

end Hiera.Spec
