/- An ordinary set-up, and the answers that the documentation promises for it: a configuration file with levels that have a
name and a path with variables in it, YAML files with plain data, and the four ways of merging. Nothing here refers to the
model of the code, except for the names of values and of what is outside (files, environment variables, rendering). -/
import Verif.Props.Key
import Verif.Spec.Reference
import Verif.Spec.Acyclic
import Verif.Spec.Merge

set_option autoImplicit false

namespace Hiera.Spec
open Value

/-! ### Levels -/

/-- A name: a letter, and then letters, digits and underscores. -/
def Name : Str → Prop
  | [] => False
  | c :: cs => c.isAlpha = true ∧ ∀ d ∈ cs, d.isAlphanum = true ∨ d = '_'

/-- A piece of a path: text, or a variable, perhaps with the names of fields in it. -/
inductive PathPiece
  | text (t : Str)
  | var (name : Str) (fields : List Str)

def PathPiece.Ok : PathPiece → Prop
  | .text t => '%' ∉ t
  | .var x fs => Name x ∧ ∀ f ∈ fs, Name f

/-- How a piece is written. -/
def PathPiece.written : PathPiece → Str
  | .text t => t
  | .var x fs => '%' :: '{' :: joinDots (x :: fs) ++ ['}']

/-- A field of a field of a value. -/
def fieldOf : List Str → Value → Option Value
  | [], v => some v
  | f :: fs, .map es => (Entries.getS es f).bind (fieldOf fs)
  | _ :: _, _ => none

/-- What a piece stands for: text for itself, and a variable for its text, which is empty if there is no such variable. -/
def PathPiece.meant (E : Env) (sc : Scope) : PathPiece → Str
  | .text t => t
  | .var x fs => match (sc.get x).bind (fieldOf fs) with
    | none => []
    | some (.str t) => t
    | some v => E.render v

/-- A level: its name, its path, and the data that is in the file, if there is one. -/
structure Level where
  name : Str
  path : List PathPiece
  data : Option Entries

def Level.written (l : Level) : Str := l.path.flatMap PathPiece.written

/-- The configuration file. -/
def configOf (ls : List Level) : Value :=
  .map [(.str "version".toList, .int 5),
    (.str "hierarchy".toList, .arr (ls.map (fun l => .map [(.str "name".toList, .str l.name), (.str "path".toList, .str l.written)])))]

/-- The data directory and the plugin directory, if the configuration says nothing about them. -/
def theDataDir (E : Env) : Str := (E.lookupEnv "HIERA_DATADIR".toList).getD "data".toList
def thePluginDir (E : Env) : Str := (E.lookupEnv "HIERA_PLUGINDIR".toList).getD "plugin".toList

/-- The file of a level. -/
def Level.file (E : Env) (sc : Scope) (l : Level) : Str :=
  join (seenFrom (dir E.configPath) (theDataDir E)) (l.path.flatMap (PathPiece.meant E sc))

/-- No string in a value, at any depth, has `%{` in it. -/
def Unmarked (v : Value) : Prop := ∀ x, Occurs v x → ¬Marked x

/-- The set-up: what the configuration file and the data files have. -/
structure Ordinary (E : Env) (sc : Scope) (ls : List Level) : Prop where
  config : E.readYaml E.configPath = .value (configOf ls)
  named : ∀ l ∈ ls, l.name ≠ []
  distinct : (ls.map Level.name).Nodup
  paths : ∀ l ∈ ls, l.written ≠ [] ∧ ∀ p ∈ l.path, p.Ok
  vars : ∀ l ∈ ls, ∀ x fs, PathPiece.var x fs ∈ l.path → ∀ v, sc.get x = some v → Unmarked v
  dataDir : ¬Marked (theDataDir E)
  pluginDir : ¬Marked (thePluginDir E)
  there : ∀ l ∈ ls, ∀ es, l.data = some es → E.stat (l.file E sc) = true ∧ E.readYaml (l.file E sc) = .value (.map es) ∧ WF (.map es)
  absent : ∀ l ∈ ls, l.data = none → E.stat (l.file E sc) = false

/-- The values that the levels have for a key, the highest level first. -/
def valuesOf (ls : List Level) (key : Str) : List Value := ls.filterMap (fun l => l.data.bind (fun es => Entries.getS es key))

/-- A part of a key: without a dot and quotes, and not a number. -/
def KeyPart (x : Str) : Prop := Unquoted x ∧ x ≠ [] ∧ ∀ i, ¬IsInt32 x i

/-! ### Options -/

/-- Lookup options that say how the values of a key are merged, if they say anything about it. -/
def OptionsAre (key : Str) (v : Value) : Prop :=
  ∃ es, v = .map es ∧ ∀ o, Entries.getS es key = some o → ∃ os, o = .map os ∧ Entries.getS os "convert_to".toList = none ∧
    ∀ m, Entries.getS os "merge".toList = some m → ∃ t, m = .str t

/-- What they say. -/
def mergeIn (key : Str) (v : Value) : Option Value := valueAt [.str key, .str "merge".toList] v

/-- How the values of a key are merged: as the caller says, else as the highest level says that says something about it, else
the first one is taken. -/
inductive MergedBy (ls : List Level) (key : Str) (opts : Entries) : Str → Prop
  | asked {st} : Entries.getS opts "merge".toList = some (.str st) → MergedBy ls key opts st
  | said {st} : Entries.getS opts "merge".toList = none →
      (valuesOf ls "lookup_options".toList).findSome? (mergeIn key) = some (.str st) → MergedBy ls key opts st
  | default : Entries.getS opts "merge".toList = none →
      (valuesOf ls "lookup_options".toList).findSome? (mergeIn key) = none → MergedBy ls key opts "first".toList

/-! ### Answers -/

/-- Values merged deeply, one after the other. -/
inductive DeepChain : List Value → Value → Prop
  | one {v} : DeepChain [v] v
  | more {a b c vs r} : DeepMerged a b c → WF c → DeepChain (c :: vs) r → DeepChain (a :: b :: vs) r

/-- The answer, from the values that the levels have. -/
inductive Textbook : Str → List Value → Option Value → Prop
  | nothing {st} : Textbook st [] none
  | first {v vs} : Textbook "first".toList (v :: vs) (some v)
  /-- all values, and elements of values, each once -/
  | unique {v w vs ls rs} : LeavesL (v :: w :: vs) ls → IsNub ls rs → Textbook "unique".toList (v :: w :: vs) (some (.arr rs))
  | uniqueOne {es} : (∀ e ∈ es, ∀ xs, e ≠ .arr xs) → es.Pairwise (fun a b => equals a b = false) →
      Textbook "unique".toList [.arr es] (some (.arr es))
  /-- all keys, with the value from the highest level -/
  | hash {as vs rs} : WF (.map rs) → (∀ k, WF k → Entries.get rs k = (as :: vs).findSome? (fun es => Entries.get es k)) →
      Textbook "hash".toList ((as :: vs).map .map) (some (.map rs))
  | deep {v vs r} : DeepChain (v :: vs) r → Textbook "deep".toList (v :: vs) (some r)

/-- Values that can be merged in the given way: to merge by `hash` they have to be hashes, and a single value merged by `unique` is
an array without arrays in it and without equal elements. -/
def Mergeable (st : Str) (vs : List Value) : Prop :=
  st ∈ ["first".toList, "unique".toList, "hash".toList, "deep".toList] ∧
  (st = "hash".toList → ∀ v ∈ vs, ∃ es, v = .map es) ∧
  (st = "unique".toList → ∀ v, vs = [v] → ∃ es, v = .arr es ∧ (∀ e ∈ es, ∀ xs, e ≠ .arr xs) ∧ es.Pairwise (fun a b => equals a b = false))

end Hiera.Spec
