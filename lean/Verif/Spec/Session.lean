/-
  Specification of the choice of a configuration file.
-/
import Verif.Spec.Config
import Verif.Model.Session

set_option autoImplicit false

namespace Hiera.Spec

/-- The directory of the configuration file. -/
inductive RootDir (S : SessionEnv) (options : Entries) : Str → Prop
  | given {v} : (Value.str "Hiera::Root".toList, v) ∈ options → RootDir S options (S.toStr v)
  | workingDir : ¬Has options "Hiera::Root".toList → RootDir S options S.cwd

/-- The name of the configuration file. -/
inductive FileName (S : SessionEnv) (options : Entries) : Str → Prop
  | given {v} : (Value.str "Hiera::ConfigFileName".toList, v) ∈ options → FileName S options (S.toStr v)
  | environment {n} : ¬Has options "Hiera::ConfigFileName".toList → S.lookupEnv "HIERA_CONFIGFILE".toList = some n →
      FileName S options n
  | builtIn : ¬Has options "Hiera::ConfigFileName".toList → S.lookupEnv "HIERA_CONFIGFILE".toList = none →
      FileName S options "hiera.yaml".toList

/-- The configuration file of a session with the given options. -/
inductive ConfigFile (S : SessionEnv) (options : Entries) : Str → Prop
  | given {v} : (Value.str "Hiera::Config".toList, v) ∈ options → ConfigFile S options (S.toStr v)
  | inRoot {root name} : ¬Has options "Hiera::Config".toList → RootDir S options root → FileName S options name →
      ConfigFile S options (join root name)

end Hiera.Spec
