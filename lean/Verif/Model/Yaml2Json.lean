/- The utility program `yaml2json`. -/
import Verif.Model.Value

set_option autoImplicit false

namespace Hiera.Yaml2Json

/-- A scalar of a document: a string, or anything else, which is given by its number. -/
inductive Scalar
  | str (s : Str)
  | other (n : Nat)
  deriving DecidableEq

/-- A YAML document: the text that the program reads (`yaml2json/main.go:30`), after parsing. -/
inductive Yaml
  | scalar (x : Scalar)
  | seq (es : List Yaml)
  | mapping (es : List (Yaml × Yaml))

/-- A Go value: a scalar, `[]interface{}`, `map[interface{}]interface{}` or `map[string]interface{}`
(`yaml2json/main.go:14-26`). Maps are lists of their entries. -/
inductive GoVal
  | scalar (x : Scalar)
  | list (es : List GoVal)
  | anyMap (es : List (GoVal × GoVal))
  | strMap (es : List (Str × GoVal))

/-- A JSON document. The order of entries is that of the YAML document: Go's encoder sorts them. -/
inductive Json
  | scalar (x : Scalar)
  | arr (es : List Json)
  | obj (es : List (Str × Json))

/-- Is this a string? -/
def Yaml.text : Yaml → Option Str
  | .scalar (.str s) => some s
  | _ => none

/-- How `yaml.Unmarshal` makes maps (a dependency; called in `yaml2json/main.go:33`). -/
inductive Maker
  /-- always `map[interface{}]interface{}` (version 2) -/
  | always
  /-- `map[string]interface{}` if all keys are strings (version 3) -/
  | ifNeeded
  deriving DecidableEq

/-- Are all keys strings? (`yaml2json/main.go:33`, dependency) -/
def stringKeyed : List (Yaml × Yaml) → Bool
  | [] => true
  | (k, _) :: es => k.text.isSome && stringKeyed es

mutual
/-- `yaml.Unmarshal` into an `interface{}` (a dependency; called in `yaml2json/main.go:33`). Simplification: keys are not
compared, so that no document is rejected for having a key twice. -/
def unmarshal (mk : Maker) : Yaml → GoVal
  | .scalar x => .scalar x
  | .seq es => .list (unmarshalList mk es)
  | .mapping es => if mk = .ifNeeded ∧ stringKeyed es = true then .strMap (unmarshalStr mk es) else .anyMap (unmarshalAny mk es)
/-- The elements (`yaml2json/main.go:33`, dependency). -/
def unmarshalList (mk : Maker) : List Yaml → List GoVal
  | [] => []
  | e :: es => unmarshal mk e :: unmarshalList mk es
/-- The entries of a `map[interface{}]interface{}` (`yaml2json/main.go:33`, dependency). -/
def unmarshalAny (mk : Maker) : List (Yaml × Yaml) → List (GoVal × GoVal)
  | [] => []
  | (k, v) :: es => (unmarshal mk k, unmarshal mk v) :: unmarshalAny mk es
/-- The entries of a `map[string]interface{}` (`yaml2json/main.go:33`, dependency). -/
def unmarshalStr (mk : Maker) : List (Yaml × Yaml) → List (Str × GoVal)
  | [] => []
  | (k, v) :: es => (k.text.getD [], unmarshal mk v) :: unmarshalStr mk es
end

mutual
/-- `stringKeys` (`yaml2json/main.go:13-27`); `none` if it panics. -/
def stringKeys : GoVal → Option GoVal
  | .anyMap es => (stringKeysMap es).map .strMap
  | .list es => (stringKeysList es).map .list
  | x => some x
/-- Lines 17-19 (`yaml2json/main.go:17-19`). -/
def stringKeysMap : List (GoVal × GoVal) → Option (List (Str × GoVal))
  | [] => some []
  | (k, v) :: es => match k with
    | .scalar (.str s) => match stringKeys v with
      | some v' => match stringKeysMap es with
        | some es' => some ((s, v') :: es')
        | none => none
      | none => none
    | _ => none
/-- Lines 22-24 (`yaml2json/main.go:22-24`). -/
def stringKeysList : List GoVal → Option (List GoVal)
  | [] => some []
  | e :: es => match stringKeys e with
    | some e' => match stringKeysList es with
      | some es' => some (e' :: es')
      | none => none
    | none => none
end

mutual
/-- `json.MarshalIndent` (Go standard library; called in `yaml2json/main.go:35`), without the indentation; `none` if it
fails. `bad` tells of scalars that JSON does not have, such as infinite numbers. A `map[interface{}]interface{}` is not
supported. -/
def marshal (bad : Nat → Bool) : GoVal → Option Json
  | .scalar (.str s) => some (.scalar (.str s))
  | .scalar (.other n) => if bad n then none else some (.scalar (.other n))
  | .list es => (marshalList bad es).map .arr
  | .strMap es => (marshalMap bad es).map .obj
  | .anyMap _ => none
/-- The elements (`yaml2json/main.go:35`, Go standard library). -/
def marshalList (bad : Nat → Bool) : List GoVal → Option (List Json)
  | [] => some []
  | e :: es => match marshal bad e with
    | some e' => match marshalList bad es with
      | some es' => some (e' :: es')
      | none => none
    | none => none
/-- The entries (`yaml2json/main.go:35`, Go standard library). -/
def marshalMap (bad : Nat → Bool) : List (Str × GoVal) → Option (List (Str × Json))
  | [] => some []
  | (k, v) :: es => match marshal bad v with
    | some v' => match marshalMap bad es with
      | some es' => some ((k, v') :: es')
      | none => none
    | none => none
end

/-- `main` (`yaml2json/main.go:29-43`) of a document that can be parsed; `none` if the program fails. -/
def convert (mk : Maker) (bad : Nat → Bool) (y : Yaml) : Option Json := (stringKeys (unmarshal mk y)).bind (marshal bad)

end Hiera.Yaml2Json
