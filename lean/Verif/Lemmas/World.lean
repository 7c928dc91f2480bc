/- Small concrete worlds for the examples beside the theorems. -/
import Verif.Model.Eval
import Verif.Lemmas.Value

set_option autoImplicit false

namespace Hiera

namespace World
open Value

/-- A string value. -/
def s (x : String) : Value := .str x.toList

/-- A session that reads `/h/hiera.yaml`, with the given configuration and YAML files. -/
def mk (cfg : Value) (files : List (Str × Value)) : Env where
  top := .config
  configPath := "/h/hiera.yaml".toList
  stat := fun p => (assoc p files).isSome
  readYaml := fun p => if p = "/h/hiera.yaml".toList then .value cfg else match assoc p files with
    | some v => .value v
    | none => .missing

/-- A hierarchy entry with one path. -/
def entry (name path : String) : Value := .map [(s "name", s name), (s "path", s path)]

/-- A configuration with the given hierarchy. -/
def cfg (hierarchy : List Value) : Value := .map [(s "version", .int 5), (s "hierarchy", .arr hierarchy)]

/-- Two levels: `a.yaml` over `b.yaml`. -/
def two (a b : List (Value × Value)) : Env :=
  mk (cfg [entry "a" "a.yaml", entry "b" "b.yaml"])
    [("/h/data/a.yaml".toList, .map a), ("/h/data/b.yaml".toList, .map b)]

/-- A fresh invocation with the given variables. -/
def st (vars : List (Value × Value)) (on : Option ExplOpts := none) : St := { v := { ic := { scope := .map vars } }, on := on }

/-- The answer of a lookup. -/
def ask (E : Env) (n : Nat) (key : String) (vars : List (Value × Value) := []) : Option (Res (Option Value)) :=
  ((eval E n).lookup ⟨key.toList, [.name key.toList]⟩ [] (st vars)).map Prod.fst

end World
end Hiera
