import Verif.Spec.Ordinary
import Verif.Spec.Grouped
import Verif.Spec.StrategySaid

/-!
# Levels of every kind

A hierarchy with levels that have one path or several, patterns of file names, or a path for every element of a variable; with
data directories and formats of their own, or those of the defaults of the configuration. Nothing here refers to the model of the code, except for the names of
values and of what is outside.
-/

set_option autoImplicit false

namespace Hiera.Spec

open Value

/-- Text with variables in it, as it is written. -/
def textWritten (ps : List PathPiece) : Str := ps.flatMap PathPiece.written

/-- Text with variables in it, as it is meant. -/
def textMeant (E : Env) (sc : Scope) (ps : List PathPiece) : Str := ps.flatMap (PathPiece.meant E sc)

/-- Where the files of a level are. -/
inductive Whereabouts
  | path (p : List PathPiece)
  | paths (ps : List (List PathPiece))
  | glob (p : List PathPiece)
  | globs (ps : List (List PathPiece))
  /-- a path for every element of a variable, or of a field of it; in the path, the element has the name `as` -/
  | mapped (x : Str) (fs : List Str) (as : Str) (p : List PathPiece)

/-- A level of the hierarchy. -/
structure Rung where
  name : Str
  /-- its own data directory, if it has one -/
  dir : Option (List PathPiece)
  /-- are its files JSON? -/
  json : Bool
  place : Whereabouts

def strings (ps : List (List PathPiece)) : Value := .arr (ps.map (fun p => .str (textWritten p)))

/-- How it is written in the configuration. -/
def Whereabouts.written : Whereabouts → Value × Value
  | .path p => (.str "path".toList, .str (textWritten p))
  | .paths ps => (.str "paths".toList, strings ps)
  | .glob p => (.str "glob".toList, .str (textWritten p))
  | .globs ps => (.str "globs".toList, strings ps)
  | .mapped x fs as p => (.str "mapped_paths".toList, .arr [.str (joinDots (x :: fs)), .str as, .str (textWritten p)])

/-- A level as it is written. What it does not say is as the defaults say. -/
structure Step where
  name : Str
  dir : Option (List PathPiece)
  json : Option Bool
  place : Whereabouts

/-- The defaults. -/
structure Preset where
  dir : Option (List PathPiece)
  json : Option Bool

def dirWritten (d : Option (List PathPiece)) : Entries := (d.map (fun d => (.str "datadir".toList, .str (textWritten d)))).toList

/-- The name of the function that reads the files. -/
def readerOf (json : Bool) : Str := if json then "json_data".toList else "yaml_data".toList

def formatWritten (j : Option Bool) : Entries := (j.map (fun j => (.str "data_hash".toList, .str (readerOf j)))).toList

def Step.written (r : Step) : Value :=
  .map ((.str "name".toList, .str r.name) :: (dirWritten r.dir ++ (formatWritten r.json ++ [r.place.written])))

def Preset.written (p : Preset) : Value := .map (dirWritten p.dir ++ formatWritten p.json)

/-- The configuration file, with defaults or without. -/
def configSaid (p : Option Preset) (ss : List Step) : Value :=
  .map ((.str "version".toList, .int 5) ::
    ((p.map (fun p => (.str "defaults".toList, p.written))).toList ++ [(.str "hierarchy".toList, .arr (ss.map Step.written))]))

/-- What is meant by a level: files are YAML unless it or the defaults say something else. -/
def Step.filled (p : Option Preset) (r : Step) : Rung :=
  ⟨r.name, r.dir.or (p.bind Preset.dir), (r.json.or (p.bind Preset.json)).getD false, r.place⟩

/-- The configuration file says that these are the levels. -/
inductive Configured (E : Env) (rs : List Rung) : Prop
  | as (p : Option Preset) (ss : List Step) : E.readYaml E.configPath = .value (configSaid p ss) → rs = ss.map (Step.filled p) →
      (∀ d, p.bind Preset.dir = some d → textWritten d ≠ [] ∧ ∀ x ∈ d, x.Ok) → Configured E rs

/-- The texts in a level. -/
def Whereabouts.texts : Whereabouts → List (List PathPiece)
  | .path p => [p]
  | .paths ps => ps
  | .glob p => [p]
  | .globs ps => ps
  | .mapped _ _ _ p => [p]

/-- Variables, and one more, which is before a variable of that name. -/
def also (sc : Scope) (x : Str) (v : Value) : Scope := ⟨fun y => if x = y then some v else sc.get y⟩

/-- The elements of a variable: those of an array, or the string. -/
def elementsOf (sc : Scope) (x : Str) (fs : List Str) : List Value :=
  match (sc.get x).bind (fieldOf fs) with
  | some (.str t) => [.str t]
  | some (.arr vs) => vs
  | _ => []

/-- The data directory of a level. -/
def Rung.dataDir (E : Env) (sc : Scope) (r : Rung) : Str :=
  seenFrom (Hiera.dir E.configPath) (match r.dir with | some d => textMeant E sc d | none => theDataDir E)

/-- The files of a level, in order. -/
def Rung.files (E : Env) (sc : Scope) (r : Rung) : List Str :=
  let d := r.dataDir E sc
  match r.place with
  | .path p => [join d (textMeant E sc p)]
  | .paths ps => ps.map (fun p => join d (textMeant E sc p))
  | .glob p => E.glob (join d (textMeant E sc p))
  | .globs ps => ps.flatMap (fun p => E.glob (join d (textMeant E sc p)))
  | .mapped x fs as p => (elementsOf sc x fs).map (fun v => join d (textMeant E (also sc as v) p))

/-- What is in a file, if it is there. -/
def Rung.dataIn (E : Env) (r : Rung) (file : Str) : Option Entries :=
  if E.stat file then
    match (if r.json then E.readJson file else E.readYaml file) with
    | .value (.map es) => some es
    | _ => none
  else none

/-- The set-up: what the configuration file and the data files have. -/
structure Laddered (E : Env) (sc : Scope) (rs : List Rung) : Prop where
  config : Configured E rs
  named : ∀ r ∈ rs, r.name ≠ []
  distinct : (rs.map Rung.name).Nodup
  texts : ∀ r ∈ rs, r.place.texts ≠ [] ∧ ∀ p ∈ r.place.texts ++ r.dir.toList, textWritten p ≠ [] ∧ ∀ x ∈ p, x.Ok
  mapped : ∀ r ∈ rs, ∀ x fs as p, r.place = .mapped x fs as p → Name x ∧ (∀ f ∈ fs, Name f) ∧ as ≠ []
  /-- there are no expressions in variables -/
  vars : ∀ x v, sc.get x = some v → Unmarked v
  dataDir : ¬Marked (theDataDir E)
  pluginDir : ¬Marked (thePluginDir E)
  /-- the files of a level are hashes -/
  data : ∀ r ∈ rs, ∀ f ∈ r.files E sc, E.stat f = true →
    ∃ es, (if r.json then E.readJson f else E.readYaml f) = .value (.map es) ∧ WF (.map es)
  /-- what matches a pattern is there -/
  matched : ∀ p, ∀ f ∈ E.glob p, E.stat f = true

/-- The configuration file has these defaults and levels, and these are meant by them. -/
structure Stepped (E : Env) (rs : List Rung) (p : Option Preset) (ss : List Step) : Prop where
  config : E.readYaml E.configPath = .value (configSaid p ss)
  filled : rs = ss.map (Step.filled p)
  dir : ∀ d, p.bind Preset.dir = some d → textWritten d ≠ [] ∧ ∀ x ∈ d, x.Ok
  named : ∀ r ∈ ss, r.name ≠ []
  distinct : (ss.map Step.name).Nodup
  texts : ∀ r ∈ ss, r.place.texts ≠ [] ∧ ∀ p ∈ r.place.texts ++ r.dir.toList, textWritten p ≠ [] ∧ ∀ x ∈ p, x.Ok
  mapped : ∀ r ∈ ss, ∀ x fs as p, r.place = .mapped x fs as p → Name x ∧ (∀ f ∈ fs, Name f) ∧ as ≠ []

/-- A level for every file of a level. -/
def Rung.levels (E : Env) (sc : Scope) (r : Rung) : List Level := (r.files E sc).map (fun f => ⟨f, [.text f], r.dataIn E f⟩)

/-- All files, in the order of the levels, as a level each. -/
def levelsIn (E : Env) (sc : Scope) (rs : List Rung) : List Level := rs.flatMap (Rung.levels E sc)

/-- No value keeps apart two others that would be merged without it. -/
def Together (vs : List Value) : Prop := ∀ a b c, [a, b, c].Sublist vs → Between a b c

end Hiera.Spec
