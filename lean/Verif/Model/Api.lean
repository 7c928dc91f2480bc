/- The functions of package `hiera` that a program calls (`hiera/hiera.go`). -/
import Verif.Model.Session
import Verif.Model.Eval

set_option autoImplicit false

namespace Hiera

/-- What type checks need: the session's environment and `Type.Instance`. Types are numbers, as in `Env`
(`hiera/hiera.go:178-183`). -/
structure Types where
  env : Env
  isInstance : Nat → Value → Bool

/-- `lookupInMap` (`hiera/hiera.go:157-166`). -/
def lookupInMap (names : List Str) : Option Entries → Option Value
  | none => none
  | some m => if m.length = 0 then none else go m names
where
  go (m : Entries) : List Str → Option Value
    | [] => none
    | n :: ns => match Entries.getS m n with
      | some v => some v
      | none => go m ns

/-- `ensureType` (`hiera/hiera.go:178-183`). `none` is the type `nil`; it also stands for `typ.Any`, of which every value is
an instance. -/
def ensureType (T : Types) (t : Option Nat) (v : Value) : Res Value :=
  match t with
  | none => .ok v
  | some t => if T.isInstance t v then .ok v else T.env.newValue t v none

/-- `ensureTypeFromMap` (`hiera/hiera.go:168-176`). A `StructMapType` is a function from its keys. -/
def ensureTypeFromMap (T : Types) (t : Option (Str → Option Nat)) (k : Str) (v : Value) : Res Value :=
  match t with
  | none => .ok v
  | some t => match t k with
    | some e => ensureType T (some e) v
    | none => .panic (.notInTypeMap k)

/-- `ic.Lookup(api.NewKey(name), options)` (`hiera/hiera.go:102`). -/
def lookupName (rec : Rec) (opts : Entries) (name : Str) : M (Option Value) := do
  let k ← lift (newKey name)
  rec.lookup k opts

/-- The loop of `Lookup2` over the names (`hiera/hiera.go:101-105`). -/
def lookupNames (rec : Rec) (opts : Entries) : List Str → M (Option Value)
  | [] => pure none
  | n :: ns => do
    match ← lookupName rec opts n with
    | some v => pure (some v)
    | none => lookupNames rec opts ns

/-- `return ensureType(valueType, v)` (`hiera/hiera.go:99`). -/
def typed (T : Types) (t : Option Nat) (v : Value) : M (Option Value) := do
  let w ← lift (ensureType T t v)
  pure (some w)

/-- `Lookup2` (`hiera/hiera.go:89-116`). Simplification: the default function returns a value, not `nil`. -/
def lookup2 (T : Types) (rec : Rec) (names : List Str) (t : Option Nat) (defaultValue : Option Value)
    (override defaults : Option Entries) (opts : Entries) (defaultFunc : Option (M Value)) : M (Option Value) :=
  match lookupInMap names override with
  | some v => typed T t v
  | none => do
    match ← lookupNames rec opts names with
    | some v => typed T t v
    | none => match lookupInMap names defaults with
      | some v => typed T t v
      | none => match defaultValue with
        | some v => typed T t v
        | none => match defaultFunc with
          | some f => do
            let v ← f
            typed T t v
          | none => pure none

/-- `ToMap` (`api/coerce.go:12-21`) of an argument that `vf.Value` has made a value of; `none` is `nil`, for which `vf.Value`
gives `vf.Nil`. -/
def toMap (argName : Str) : Option Value → Res Entries
  | none => .ok []
  | some .null => .ok []
  | some (.map es) => .ok es
  | some _ => .panic (.notMap argName)

/-- `Lookup` (`hiera/hiera.go:68-70`). -/
def lookupOne (T : Types) (rec : Rec) (name : Str) (defaultValue : Option Value) (options : Option Value) : M (Option Value) := do
  let opts ← lift (toMap "lookup options".toList options)
  lookup2 T rec [name] none defaultValue none none opts none

/-- The scope of an invocation for whatever the caller gives as the scope (`session/session.go:134-141`). -/
def givenScope (session : Scope) : Option Value → Res Scope
  | none => .ok session
  | some si => match toMap "invocation scope".toList (some si) with
    | .ok es => .ok (invocationScope session (some es))
    | .panic e => .panic e

/-- The value that `LookupAll` puts under a name, before it is typed (`hiera/hiera.go:140-152`). -/
def lookupForAll (rec : Rec) (override defaults : Option Entries) (opts : Entries) (name : Str) : M (Option Value) :=
  match lookupInMap [name] override with
  | some v => pure (some v)
  | none => do
    match ← lookupName rec opts name with
    | some v => pure (some v)
    | none => pure (lookupInMap [name] defaults)

/-- The loop of `LookupAll` (`hiera/hiera.go:139-153`). -/
def lookupAllLoop (T : Types) (rec : Rec) (t : Option (Str → Option Nat)) (override defaults : Option Entries) (opts : Entries) :
    List Str → Entries → M Entries
  | [], response => pure response
  | n :: ns, response => do
    match ← lookupForAll rec override defaults opts n with
    | some v => do
      let w ← lift (ensureTypeFromMap T t n v)
      lookupAllLoop T rec t override defaults opts ns (Entries.put response (.str n) w)
    | none => lookupAllLoop T rec t override defaults opts ns response

/-- `LookupAll` (`hiera/hiera.go:131-155`). -/
def lookupAll (T : Types) (rec : Rec) (names : List Str) (t : Option (Str → Option Nat)) (override defaults : Option Entries)
    (opts : Entries) : M Value := do
  let r ← lookupAllLoop T rec t override defaults opts names []
  pure (.map r)

end Hiera
