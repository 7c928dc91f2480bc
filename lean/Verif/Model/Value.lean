/-
  dgo values and the dgo operations that the Hiera code relies on.

  dgo is an external dependency (github.com/lyraproj/dgo) whose source is not part of /repo; the definitions in this
  file are assumptions about it (see DESIGN.md, trusted base). Everything else in `Verif/Model` transcribes /repo.
-/

set_option autoImplicit false

namespace Hiera

/-- Go strings. Simplification: only valid UTF-8 strings are considered, as a list of runes (Go; `api/key.go:46`). -/
abbrev Str := List Char

/-- `dgo.Value`. `Value.null` is `vf.Nil`; an absent value (Go `nil`) is `Option.none`.
A `dgo.Map` is its list of entries in insertion order. `opaque` stands for values the Hiera code never looks into
(floats, binaries, types, functions, ...), identified by a number (dgo; the values that `api/invocation.go:10-140` is
about). -/
inductive Value
  | null
  | bool (b : Bool)
  | int (i : Int)
  | str (s : Str)
  | arr (es : List Value)
  | map (es : List (Value × Value))
  | sensitive (v : Value)
  | opaque (n : Nat)

/-- Infrastructure; some value, for `api/key.go:46`. -/
instance : Inhabited Value := ⟨.null⟩

/-- The entries of a `dgo.Map` (dgo; `merge/deepmerge.go:33-50`). -/
abbrev Entries := List (Value × Value)

namespace Value

mutual
/-- `dgo.Value.Equals`: structural, except that maps are compared without regard to the order of their entries (dgo;
used in `merge/deepmerge.go:44,55`, `config/mappedpaths.go:126`). -/
def equals : Value → Value → Bool
  | .null, .null => true
  | .bool a, .bool b => a == b
  | .int a, .int b => a == b
  | .str a, .str b => a == b
  | .arr a, .arr b => equalsList a b
  | .map a, .map b => a.length == b.length && equalsMap a b
  | .sensitive a, .sensitive b => equals a b
  | .opaque a, .opaque b => a == b
  | _, _ => false
/-- Element-wise `Equals` of arrays (dgo; used in `merge/deepmerge.go:44,55`). -/
def equalsList : List Value → List Value → Bool
  | [], [] => true
  | a :: as, b :: bs => equals a b && equalsList as bs
  | _, _ => false
/-- Every entry of the first list has an entry with equal key and equal value in the second (dgo; used in
`merge/deepmerge.go:44,55`). -/
def equalsMap : List (Value × Value) → List (Value × Value) → Bool
  | [], _ => true
  | (k, v) :: es, fs =>
    (match fs.find? (fun e => equals k e.1) with
     | some e => equals v e.2
     | none => false) && equalsMap es fs
end

mutual
/-- Identity of values (including the order of map entries). Used only to tell providers apart, and to state and check
examples (no counterpart in `merge/*.go`). -/
def same : Value → Value → Bool
  | .null, .null => true
  | .bool a, .bool b => a == b
  | .int a, .int b => a == b
  | .str a, .str b => a == b
  | .arr a, .arr b => sameList a b
  | .map a, .map b => sameMap a b
  | .sensitive a, .sensitive b => same a b
  | .opaque a, .opaque b => a == b
  | _, _ => false
/-- `same` on lists (no counterpart in `merge/*.go`). -/
def sameList : List Value → List Value → Bool
  | [], [] => true
  | a :: as, b :: bs => same a b && sameList as bs
  | _, _ => false
/-- `same` on entries (no counterpart in `merge/*.go`). -/
def sameMap : List (Value × Value) → List (Value × Value) → Bool
  | [], [] => true
  | (k, v) :: as, (l, w) :: bs => same k l && same v w && sameMap as bs
  | _, _ => false
end

mutual
/-- dgo maps hold at most one entry per key (keys compared with `Equals`), at every depth (dgo; no counterpart in
`merge/*.go`). -/
def WF : Value → Prop
  | .arr es => WFList es
  | .map es => WFEntries es ∧ es.Pairwise (fun e f => equals e.1 f.1 = false)
  | .sensitive v => WF v
  | _ => True
/-- `WF` for all elements (dgo; no counterpart in `merge/*.go`). -/
def WFList : List Value → Prop
  | [] => True
  | v :: vs => WF v ∧ WFList vs
/-- `WF` for all keys and values (dgo; no counterpart in `merge/*.go`). -/
def WFEntries : List (Value × Value) → Prop
  | [] => True
  | (k, v) :: es => WF k ∧ WF v ∧ WFEntries es
end

end Value

open Value

/-- `dgo.Map.Get` (dgo; used in `session/resolvedconfig.go:57`). -/
def Entries.get (es : Entries) (k : Value) : Option Value :=
  (es.find? (fun e => equals k e.1)).map (·.2)

/-- `dgo.Map.Get` with a Go string argument (dgo; used in `hiera/hiera.go:160`). -/
def Entries.getS (es : Entries) (k : Str) : Option Value := Entries.get es (.str k)

/-- `dgo.Map.ContainsKey` (dgo; used in `merge/deepmerge.go:40`). -/
def Entries.containsKey (es : Entries) (k : Value) : Bool := es.any (fun e => equals k e.1)

/-- `dgo.Map.Put`: replaces the value of an existing entry in place, otherwise appends (dgo; used in
`session/interpolate.go:57`). -/
def Entries.put : Entries → Value → Value → Entries
  | [], k, v => [(k, v)]
  | (k', v') :: es, k, v => if equals k k' then (k', v) :: es else (k', v') :: Entries.put es k v

/-- `dgo.Map.PutAll` (dgo; used in `session/session.go:58`). -/
def Entries.putAll (es fs : Entries) : Entries := fs.foldl (fun acc e => Entries.put acc e.1 e.2) es

/-- `dgo.Map.Merge`: the entries of the receiver, then those of the argument put over them. (dgo short-cuts an empty
receiver or argument, with the same result on well-formed maps.) (dgo; used in `merge/strategy.go:233`) -/
def Entries.merge (es fs : Entries) : Entries :=
  if fs.isEmpty then es else if es.isEmpty then fs else Entries.putAll es fs

/-- `dgo.Map.Without` (dgo; used in `session/invocation.go:176`). -/
def Entries.without (es : Entries) (k : Value) : Entries := es.filter (fun e => !equals k e.1)

mutual
/-- `dgo.Array.Flatten` of one element: an array is replaced by its flattened elements (dgo; used in
`merge/strategy.go:160,167`). -/
def flattenV : Value → List Value
  | .arr es => flatten es
  | v => [v]
/-- `dgo.Array.Flatten` (dgo; used in `merge/strategy.go:160,167`). -/
def flatten : List Value → List Value
  | [] => []
  | v :: vs => flattenV v ++ flatten vs
end

/-- `dgo.Array.Unique` with the already seen elements (dgo; used in `merge/strategy.go:160,173`). -/
def uniqueFrom (seen : List Value) : List Value → List Value
  | [] => []
  | v :: vs => if seen.any (fun x => equals x v) then uniqueFrom seen vs else v :: uniqueFrom (seen ++ [v]) vs

/-- `dgo.Array.Unique`: keeps the first occurrence of each element (dgo; used in `merge/strategy.go:160,173`,
`merge/deepmerge.go:54`). -/
def unique (vs : List Value) : List Value := uniqueFrom [] vs

/-- The errors the Hiera code panics with. One constructor per `panic` in the modelled code, with the data that is part
of the message; `other` stands for errors raised by code outside the repository (for example
`session/invocation.go:263`, `session/interpolate.go:90,108,130`, `api/key.go:152,157,186`). -/
inductive Err
  /-- `api/key.go:152` key '%s' first segment cannot be an index -/
  | firstIndex (key : Str)
  /-- `api/key.go:157` key '%s' contains an empty segment -/
  | emptySegment (key : Str)
  /-- `api/key.go:186` unterminated quote in key '%s' -/
  | unterminatedQuote (key : Str)
  /-- `merge/strategy.go:38` unknown merge strategy '%s' -/
  | unknownStrategy (name : Str)
  /-- `session/interpolate.go:90` interpolation using method syntax is not allowed in this context -/
  | methodsNotAllowed
  /-- `session/interpolate.go:108` unknown interpolation method '%s' -/
  | unknownMethod (name : Str)
  /-- `session/interpolate.go:130` 'alias'/'strict_alias' only permitted for the entire string -/
  | aliasNotAlone
  /-- `session/invocation.go:263` recursive lookup detected in [%s] -/
  | recursiveLookup (stack : List Str)
  /-- `config/config.go:190` hierarchy name '%s' defined more than once -/
  | duplicateName (name : Str)
  /-- `config/entry.go:75` only one of the functions can be defined in hierarchy '%s' -/
  | manyFunctions (name : Str)
  /-- `config/config.go:213` only one of the locations can be defined in hierarchy '%s' -/
  | manyLocations (name : Str)
  /-- `config/entry.go:69-70` option key '%s' used in hierarchy '%s' is reserved by Hiera -/
  | reservedOption (opt name : Str)
  /-- `config/config.go:99` the configuration is not an instance of the schema -/
  | schema
  /-- `api.MissingRequiredOption` -/
  | missingOption (name : Str)
  /-- `api.YamlNotHash`, `api.JSONNOtHash` -/
  | notHash (path : Str)
  /-- `hiera/hiera.go:175` key '%s' was not found in the type map -/
  | notInTypeMap (key : Str)
  /-- `hiera/hiera.go:298` unable to parse variable '%s' -/
  | badVariable (arg : Str)
  /-- `hiera/hiera.go:241` type must be a map -/
  | typeNotMap
  /-- `hiera/hiera.go:328` file '%s' does not contain a YAML hash -/
  | varsNotHash (path : Str)
  /-- `hiera/render.go:70` unknown rendering '%s' -/
  | unknownRendering (name : Str)
  /-- a Go run-time error: nil dereference -/
  | nilDeref
  /-- a Go run-time error: failed type assertion -/
  | typeAssertion
  /-- `api.ToMap`: %s does not represent a map -/
  | notMap (what : Str)
  /-- anything raised by code that is not part of the repository -/
  | other (n : Nat)
  deriving DecidableEq

/-- The outcome of Go code that may panic (as anywhere in `session/*.go`). -/
inductive Res (α : Type) where
  | ok (a : α)
  | panic (e : Err)
  deriving DecidableEq

/-- Sequencing of possibly panicking code (as anywhere in `session/*.go`). -/
def Res.bind {α β : Type} : Res α → (α → Res β) → Res β
  | .ok a, f => f a
  | .panic e, _ => .panic e

/-- Sequencing of possibly panicking code, as anywhere in `session/*.go`. -/
instance : Monad Res where
  pure := .ok
  bind := Res.bind

/-! ### Decidable equality -/

open Value

mutual
theorem same_iff : ∀ a b : Value, same a b = true ↔ a = b
  | .null, b => by cases b <;> simp [same]
  | .bool x, b => by cases b <;> simp [same]
  | .int x, b => by cases b <;> simp [same]
  | .str x, b => by cases b <;> simp [same]
  | .arr x, b => by cases b <;> simp [same, sameList_iff]
  | .map x, b => by cases b <;> simp [same, sameMap_iff]
  | .sensitive x, b => by cases b <;> simp [same, same_iff x]
  | .opaque x, b => by cases b <;> simp [same]
theorem sameList_iff : ∀ a b : List Value, sameList a b = true ↔ a = b
  | [], b => by cases b <;> simp [sameList]
  | x :: xs, b => by cases b <;> simp [sameList, same_iff x, sameList_iff xs]
theorem sameMap_iff : ∀ a b : List (Value × Value), sameMap a b = true ↔ a = b
  | [], b => by cases b <;> simp [sameMap]
  | (k, v) :: xs, b => by
    cases b with
    | nil => simp [sameMap]
    | cons y ys => obtain ⟨l, w⟩ := y; simp [sameMap, same_iff k, same_iff v, sameMap_iff xs, and_assoc]
end

/-- Infrastructure: values can be compared (no counterpart in `merge/*.go`). -/
instance : DecidableEq Value := fun a b => decidable_of_iff (same a b = true) (same_iff a b)

end Hiera
