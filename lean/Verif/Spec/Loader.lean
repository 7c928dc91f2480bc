/- Where the function of a hierarchy entry comes from. -/
import Verif.Spec.Place
import Verif.Model.Eval

set_option autoImplicit false

namespace Hiera.Spec

/-- The file that an entry names as the plugin of its function: the plugin file, else the name of the function, seen from
the plugin directory. -/
def pluginFileOf (e : Entry) (n : Str) : Str := match e.pluginFile with
  | [] => n
  | f => f

/-- The place of that file, seen from the working directory. -/
def pluginPlace (cwd : Str) (e : Entry) (n : Str) : Place := place (place (place [] cwd) e.pluginDir) (pluginFileOf e n)

/-- The mark that tells plugins apart occurs only at the end. -/
def MarkLast (b : Str) : Prop := ∀ a r, b ++ "/plugin/".toList = a ++ "/plugin/".toList ++ r → r = []

/-- The name that goes before the mark. -/
def prefixName (l : List Str) : Str := if absName l = ['/'] then [] else absName l

end Hiera.Spec
