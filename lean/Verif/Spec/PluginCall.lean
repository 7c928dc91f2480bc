/- What a plugin understands of a request: the encoding of forms (`application/x-www-form-urlencoded`). -/
import Verif.Model.PluginCall

set_option autoImplicit false

namespace Hiera.Spec

/-- The value of a hexadecimal digit. -/
def digitValue (b : UInt8) : Option UInt8 :=
  if 0x30 ≤ b ∧ b ≤ 0x39 then some (b - 0x30)
  else if 0x41 ≤ b ∧ b ≤ 0x46 then some (b - 0x37)
  else if 0x61 ≤ b ∧ b ≤ 0x66 then some (b - 0x57)
  else none

/-- A part of a form: `+` is a blank, `%` and two digits are the byte with that number, everything else is itself. -/
def decodePart : List UInt8 → Option (List UInt8)
  | [] => some []
  | c :: r =>
    if c = 0x25 then
      match r with
      | a :: b :: r' => match digitValue a, digitValue b, decodePart r' with
        | some x, some y, some z => some ((16 * x + y) :: z)
        | _, _, _ => none
      | _ => none
    else (decodePart r).map ((if c = 0x2B then 0x20 else c) :: ·)

/-- A name and a value. -/
def decodePair (p : List UInt8) : Option (List UInt8 × List UInt8) := do
  let k ← decodePart (p.takeWhile (· ≠ 0x3D))
  let v ← decodePart (p.dropWhile (· ≠ 0x3D)).tail
  pure (k, v)

/-- The names and values of a form. -/
def decodeForm (q : List UInt8) : Option (List (List UInt8 × List UInt8)) :=
  if q = [] then some [] else (q.splitOn 0x26).mapM decodePair

/-- What a response means: a value, no value, or an error. -/
inductive Means (parse : List UInt8 → Res (Option Value)) : Plugin.Resp → Res (Option Value) → Prop
  | found (b : List UInt8) : Means parse (.answer 200 (some b)) (parse b)
  | notFound (b : Option (List UInt8)) : Means parse (.answer 404 b) (.ok none)
  | unread (e : Err) : Means parse (.answer 200 none) (.panic e)
  | status (n : Nat) (b : Option (List UInt8)) (e : Err) (h : n ≠ 200 ∧ n ≠ 404) : Means parse (.answer n b) (.panic e)
  | failed (e : Err) : Means parse .failed (.panic e)

/-- The name of a kind of function, by which plugins know it. -/
def kindName : Plugin.Kind → String
  | .dataDig => "data_dig"
  | .dataHash => "data_hash"
  | .lookupKey => "lookup_key"

/-- A request asks the plugin for a function of a kind with a form. -/
structure Asks (p : Plugin.Plugin) (k : Plugin.Kind) (name : Str) (form : List (List UInt8 × List UInt8)) (r : Plugin.Req) : Prop where
  network : r.network = p.network
  addr : r.addr = p.addr
  path : r.path = '/' :: (kindName k).toList ++ '/' :: name
  query : decodeForm r.query = some form

/-- The bytes of a text in UTF-8. -/
def bytes (s : String) : List UInt8 := s.toUTF8.data.toList

/-- The form of a call: the options, unless there are none, and the key. -/
def form (json : Value → List UInt8) (opts : Entries) (key : Option (List UInt8)) : List (List UInt8 × List UInt8) :=
  (key.toList.map (bytes "key", ·)) ++ (match opts with
    | [] => []
    | o :: os => [(bytes "options", json (.map (o :: os)))])

/-- The value of a variable in an environment in which later definitions count. -/
def envValue (env : List Str) (name : Str) : Option Str :=
  env.foldl (fun r d => match (name ++ ['=']).isPrefixOf d with
    | true => some (d.drop (name.length + 1))
    | false => r) none

end Hiera.Spec
