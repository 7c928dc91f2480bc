/-
  Specifications for what the providers give and what their functions see.
-/
import Verif.Spec.Eval
import Verif.Model.Module

set_option autoImplicit false

namespace Hiera.Spec

/-! ### The environment -/

/-- A string of the environment defines a variable: `NAME=value`, where the name is not empty and has no `=`. -/
def Defines (ev n v : Str) : Prop := ev = n ++ '=' :: v ∧ n ≠ [] ∧ '=' ∉ n

/-- The value that an environment gives to a variable: that of its last definition. -/
def LastDefinition (env : List Str) (n v : Str) : Prop :=
  ∃ pre ev post, env = pre ++ ev :: post ∧ Defines ev n v ∧ ∀ ev' ∈ post, ∀ v', ¬Defines ev' n v'

/-! ### Options -/

/-- The options that the function of a provider is to see: those of the entry, and the location as `path`. -/
def Sees (p : Prov) (loc : Option Loc) (opts : Entries) : Prop :=
  (∀ k, k ≠ "path".toList → Entries.getS opts k = Entries.getS (p.entry.options.getD []) k) ∧
  Entries.getS opts "path".toList = match loc with
    | some l => some (.str l.resolved)
    | none => Entries.getS (p.entry.options.getD []) "path".toList

/-- What the data of a `data_hash` entry are remembered under. -/
def memoKey : Option Loc → Str
  | some l => l.resolved
  | none => []

/-! ### Modules -/

/-- The part of a key before its first `::`. -/
def BeforeColons (key n : Str) : Prop :=
  (∃ rest, key = n ++ ':' :: ':' :: rest) ∧ ∀ n' rest', key = n' ++ ':' :: ':' :: rest' → n.length ≤ n'.length

/-- The configuration file of a directory on the module path. -/
def moduleFile (path dir : Str) : Str := join (join path dir) "hiera.yaml".toList

/-- The directory holds the module, with this configuration file. -/
def Holds (E : Env) (name path cp : Str) : Prop :=
  ∃ es dir, E.readDir path = .entries es ∧ (dir, true) ∈ es ∧ toLower dir = toLower name ∧ cp = moduleFile path dir ∧
    E.lstat cp = .file

/-- The directory does not exist, or has no directory of that name with a configuration file. -/
def Lacks (E : Env) (name path : Str) : Prop :=
  E.readDir path = .missing ∨
  ∃ es, E.readDir path = .entries es ∧ ∀ dir, (dir, true) ∈ es → toLower dir = toLower name →
    E.lstat (moduleFile path dir) = .missing ∨ E.lstat (moduleFile path dir) = .dir

/-- The directory, or what would be the configuration file of the module in it, cannot be examined. -/
def Fails (E : Env) (name path : Str) (e : Err) : Prop :=
  E.readDir path = .err e ∨
  ∃ es dir, E.readDir path = .entries es ∧ (dir, true) ∈ es ∧ toLower dir = toLower name ∧ E.lstat (moduleFile path dir) = .err e

/-- No two entries of a directory have names that differ only in case. -/
def CaseDistinct (E : Env) (path : Str) : Prop :=
  ∀ es, E.readDir path = .entries es → es.Pairwise (fun a b => toLower a.1 ≠ toLower b.1)

end Hiera.Spec
