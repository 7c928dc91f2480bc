/- Lookups in values, and the lookup that they are part of. -/
import Verif.Lemmas.World

set_option autoImplicit false

namespace Hiera

open Value World

/-- A session as the command line makes it, with a module: its configuration has one data file, and the module has
two. `x` is the value that the first file has at `mod::a`, under `x`. -/
def nestingWorld (x : Value) : Env where
  top := .mux
  configPath := "/h/hiera.yaml".toList
  muxFns := some [.config, .module]
  modulePath := some ["/m".toList]
  readDir := fun _ => .entries [("mod".toList, true)]
  lstat := fun _ => .file
  stat := fun _ => true
  readYaml := fun p =>
    if p = "/h/hiera.yaml".toList then .value (cfg [entry "g" "g.yaml"])
    else if p = "/h/data/g.yaml".toList then .value (.map [(s "mod::a", .map [(s "x", x)]), (s "y", s "v")])
    else if p = "/m/mod/hiera.yaml".toList then .value (cfg [entry "p" "p.yaml", entry "q" "q.yaml"])
    else if p = "/m/mod/data/p.yaml".toList then .value (.map [(s "mod::a", .map [(s "p", .int 1)]),
      (s "lookup_options", .map [(s "mod::a", .map [(s "merge", s "deep")])])])
    else if p = "/m/mod/data/q.yaml".toList then .value (.map [(s "mod::a", .map [(s "q", .int 2)])])
    else .missing

/-- A lookup in a value changes the strategy of the lookup that it is part of: all of the hash is found if the value is
text, and a part of it is lost if the same text comes from another lookup. -/
theorem C77_false :
    ask (nestingWorld (s "v")) 9 "mod::a" = some (.ok (some (.map [(s "x", s "v"), (s "p", .int 1), (s "q", .int 2)]))) ∧
    ask (nestingWorld (s "%{lookup('y')}")) 9 "y" = some (.ok (some (s "v"))) ∧
    ask (nestingWorld (s "%{lookup('y')}")) 9 "mod::a" = some (.ok (some (.map [(s "x", s "v"), (s "p", .int 1)]))) := by
  decide +kernel

end Hiera
