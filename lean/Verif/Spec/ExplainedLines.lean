/- What `--explain` prints in an ordinary set-up (`Spec/Ordinary.lean`), line by line, from the levels and the data. Nothing here
refers to the tree that the explainer builds. -/
import Verif.Spec.Ordinary
import Verif.Spec.Telling

set_option autoImplicit false

namespace Hiera.Spec

/-- A line that says that a key was found, or that it was not. -/
def foundLine (d : Nat) (key : Str) : Option Value → PageLine
  | some v => (d, quoting "Found key: ".toList key ++ said " value: ".toList ++ [.inr v])
  | none => (d, quoting "No such key: ".toList key)

/-- The lines about a level: how its data is read, its file, how that is written in the configuration, and what the file has. -/
def levelLines (E : Env) (sc : Scope) (key : Str) (d : Nat) (l : Level) : List PageLine :=
  [(d, said "data_hash function 'yaml_data'".toList),
   (d + 1, quoting "Path ".toList (l.file E sc)),
   (d + 2, quoting "Original path: ".toList l.written),
   match l.data with
   | none => (d + 2, said "path not found".toList)
   | some es => foundLine (d + 2) key (Entries.getS es key)]

/-- The levels that have to be asked to find the first value. -/
def untilFound (key : Str) : List Level → List Level
  | [] => []
  | l :: ls => l :: match l.data.bind (fun es => Entries.getS es key) with
    | some _ => []
    | none => untilFound key ls

/-- The lines about the levels that are asked, and about the merge of what they have if there are at least two. -/
def searchLines (E : Env) (sc : Scope) (st key : Str) (d : Nat) (ls : List Level) (v : Option Value) : List PageLine :=
  if st = "first".toList then (untilFound key ls).flatMap (levelLines E sc key d)
  else match ls with
    | [] => []
    | [l] => levelLines E sc key d l
    | ls => (d, quoting "Merge strategy ".toList (st ++ " merge strategy".toList)) :: ls.flatMap (levelLines E sc key (d + 1)) ++
        v.toList.map (fun v => (d + 1, said "Merged result: ".toList ++ [.inr v]))

/-- The line about where the strategy is from. -/
def sourceLines (ls : List Level) (key : Str) (opts : Entries) (d : Nat) : List PageLine :=
  match Entries.getS opts "merge".toList, (valuesOf ls "lookup_options".toList).findSome? (mergeIn key) with
  | some _, _ => [(d, said "Using merge options from CLI option".toList)]
  | none, some _ => [(d, said "Using merge options from \"lookup_options\" hash".toList)]
  | none, none => []

/-- The lines about the fields of a value that a dotted key asks for, up to one that is not there. -/
def fieldLines (d : Nat) : List Str → Value → List PageLine
  | [], _ => []
  | f :: fs, v => foundLine d f (fieldOf [f] v) :: match fieldOf [f] v with
    | some w => fieldLines d fs w
    | none => []

/-- The lines about a dotted key, if there is a value to look for the fields in. -/
def subKeyLines (fs : List Str) : Option Value → List PageLine
  | none => []
  | some v => match fs with
    | [] => []
    | fs => (0, quoting "Sub key: ".toList (joinDots fs)) :: fieldLines 1 fs v

/-- The explanation of a lookup of a key, or of fields of it, where `merged` is what the levels have, merged, and `v` the value of the
key. -/
def explanation (E : Env) (sc : Scope) (ls : List Level) (st root : Str) (fs : List Str) (opts : Entries) (merged v : Option Value) :
    List PageLine :=
  (0, quoting "Searching for ".toList root) :: sourceLines ls root opts 1 ++ searchLines E sc st root 1 ls merged ++ subKeyLines fs v

/-- The lines about the options of all keys, where `merged` is what the levels have as options, merged. -/
def optionsLines (E : Env) (sc : Scope) (ls : List Level) (merged : Option Value) : List PageLine :=
  (0, quoting "Searching for ".toList "lookup_options".toList) :: searchLines E sc "deep".toList "lookup_options".toList 1 ls merged

/-- What is told of is the options, if they are asked for, and then the key, unless only the options are asked for. -/
def askedLines (ex : ExplOpts) (options data : List PageLine) : List PageLine :=
  (if ex.options then options else []) ++ (if ex.onlyOptions then [] else data)

end Hiera.Spec
