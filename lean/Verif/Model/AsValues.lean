/- Keys and locations as values of dgo: their equality, their hash codes, and the values that they are turned into and made of
(`api/key.go`, `config/path.go`, `config/glob.go`, `config/uri.go`, `config/mappedpaths.go`). -/
import Verif.Model.Config
import Verif.Model.Key

set_option autoImplicit false

namespace Hiera.AsValues

open Value

/-- What may be compared: a key (`api/key.go:38-41`), a location (`config/path.go:16-20`, `config/glob.go:16`, `config/uri.go:14-17`,
`config/mappedpaths.go:16-25`), or another value. -/
inductive Obj
  | key (k : Key)
  | loc (l : Loc)
  | val (v : Value)

/-- `key.Equals` (`api/key.go:117-122`). -/
def keyEquals (k : Key) : Obj → Bool
  | .key j => k.source == j.source
  | _ => false

/-- `Equals` of locations (`config/path.go:55-61`, `config/glob.go:39-41`, `config/uri.go:50-56`, `config/mappedpaths.go:59-64`): the
types and all fields are compared. -/
def locEquals : Loc → Obj → Bool
  | .path o r e, .loc (.path o' r' e') => o == o' && r == r' && e == e'
  | .glob p, .loc (.glob p') => p == p'
  | .uri o r, .loc (.uri o' r') => o == o' && r == r'
  | .mapped s k t, .loc (.mapped s' k' t') => s == s' && k == k' && t == t'
  | _, _ => false

/-- `key.HashCode` (`api/key.go:124-126`): `none` is a panic. -/
def keyHash (_ : Key) : Option (BitVec 64) := none

/-- `HashCode` of locations (`config/path.go:51-53`, `config/glob.go:43-45`, `config/uri.go:46-48`, `config/mappedpaths.go:70-72`).
`h` is `util.StringHash` of dgo; an `int` has 64 bits. -/
def locHash (h : Str → BitVec 64) : Loc → Option (BitVec 64)
  | .path o _ _ => some (h o)
  | .glob p => some (h p)
  | .uri o _ => some (h o)
  | .mapped s k t => some (h s * 31 + h k * 31 + h t)

/-- The names of types (`api/key.go:51`, `config/path.go:23`, `config/glob.go:19`, `config/uri.go:20`, `config/mappedpaths.go:28`). -/
inductive Kind
  | key | path | glob | uri | mapped

/-- A field that is text: `m.Get(n).(dgo.String).GoString()` (`config/path.go:27`); the assertion fails without the field. -/
def textField (es : Entries) (n : Str) : Res Str :=
  match Entries.getS es n with
  | some (.str t) => .ok t
  | _ => .panic .typeAssertion

/-- A field that is a truth value: `m.Get(n).(dgo.Boolean).GoBool()` (`config/path.go:29`). -/
def boolField (es : Entries) (n : Str) : Res Bool :=
  match Entries.getS es n with
  | some (.bool b) => .ok b
  | _ => .panic .typeAssertion

/-- The value that a key or a location is turned into (`api/key.go:55-57`, `config/path.go:31-37`, `config/glob.go:23-25`,
`config/uri.go:27-32`, `config/mappedpaths.go:36-42`). -/
def toValue : Obj → Value
  | .key k => .str k.source
  | .loc (.path o r e) => .map [(.str "original".toList, .str o), (.str "resolved".toList, .str r), (.str "exists".toList, .bool e)]
  | .loc (.glob p) => .str p
  | .loc (.uri o r) => .map [(.str "original".toList, .str o), (.str "resolved".toList, .str r)]
  | .loc (.mapped s k t) => .map [(.str "sourceVar".toList, .str s), (.str "key".toList, .str k), (.str "template".toList, .str t)]
  | .val v => v

/-- What is made of a value (`api/key.go:52-54`, `config/path.go:24-30`, `config/glob.go:20-22`, `config/uri.go:21-26`,
`config/mappedpaths.go:29-35`). `text` is `String()` of values that are not text, in dgo. -/
def ofValue (text : Value → Str) : Kind → Value → Res Obj
  | .key, .str s => (newKey s).bind (fun k => .ok (.key k))
  | .key, v => (newKey (text v)).bind (fun k => .ok (.key k))
  | .path, .map es => (textField es "original".toList).bind (fun o => (textField es "resolved".toList).bind (fun r =>
      (boolField es "exists".toList).bind (fun e => .ok (.loc (.path o r e)))))
  | .glob, .str s => .ok (.loc (.glob s))
  | .uri, .map es => (textField es "original".toList).bind (fun o => (textField es "resolved".toList).bind (fun r => .ok (.loc (.uri o r))))
  | .mapped, .map es => (textField es "sourceVar".toList).bind (fun s => (textField es "key".toList).bind (fun k =>
      (textField es "template".toList).bind (fun t => .ok (.loc (.mapped s k t)))))
  | _, _ => .panic .typeAssertion

end Hiera.AsValues
