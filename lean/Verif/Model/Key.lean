/- `api/key.go`: parsing of dotted keys, `Bury`, and the pure part of `Dig`. -/
import Verif.Model.Value

set_option autoImplicit false

namespace Hiera

/-- A part of a key: `int` or `string` (`api/key.go:14-15`). -/
inductive Part
  | idx (i : Int)
  | name (s : Str)
  deriving DecidableEq

/-- `struct key` (`api/key.go:39-42`). -/
structure Key where
  source : Str
  parts : List Part
  deriving DecidableEq

/-- One digit of `strconv.ParseInt` with base 10 (used in `api/key.go:150`). -/
def digit? (c : Char) : Option Nat :=
  if '0' ≤ c ∧ c ≤ '9' then some (c.toNat - '0'.toNat) else none

/-- The digits loop of `strconv.ParseUint` with base 10 (Go standard library) (used in `api/key.go:150`). -/
def parseDigits (acc : Nat) : Str → Option Nat
  | [] => some acc
  | c :: cs => match digit? c with
    | some d => parseDigits (acc * 10 + d) cs
    | none => none

/-- `strconv.ParseUint` with base 10, before the range check: at least one digit (used in `api/key.go:150`). -/
def parseUint : Str → Option Nat
  | [] => none
  | cs => parseDigits 0 cs

/-- `strconv.ParseInt(s, 10, 32)`; `none` stands for any error (Go standard library) (used in `api/key.go:150`). -/
def parseInt32 : Str → Option Int
  | '-' :: cs => match parseUint cs with
    | some n => if n ≤ 2147483648 then some (-(n : Int)) else none
    | none => none
  | '+' :: cs => match parseUint cs with
    | some n => if n < 2147483648 then some (n : Int) else none
    | none => none
  | cs => match parseUint cs with
    | some n => if n < 2147483648 then some (n : Int) else none
    | none => none

/-- `mungedPart` (`api/key.go:149-160`). `ix` is the number of parts already collected. -/
def mungedPart (key : Str) (ix : Nat) (part : Str) : Res Part :=
  match parseInt32 part with
  | some i => if ix = 0 then .panic (.firstIndex key) else .ok (.idx i)
  | none => if part = [] then .panic (.emptySegment key) else .ok (.name part)

mutual
/-- `parseUnquoted` (`api/key.go:148-174`); `b` is the content of the buffer. -/
def parseUnquoted (b : Str) (key : Str) (parts : List Part) : Str → Res (List Part)
  | [] => match mungedPart key parts.length b with
    | .ok p => .ok (parts ++ [p])
    | .panic e => .panic e
  | c :: cs =>
    if c = '\'' ∨ c = '"' then parseQuoted b c key parts cs
    else if c = '.' then
      match mungedPart key parts.length b with
      | .ok p => parseUnquoted [] key (parts ++ [p]) cs
      | .panic e => .panic e
    else parseUnquoted (b ++ [c]) key parts cs
/-- `parseQuoted` (`api/key.go:176-187`). When the closing quote is the last character of the key, the buffer becomes
the last part as it is; otherwise parsing continues unquoted with the same buffer. -/
def parseQuoted (b : Str) (q : Char) (key : Str) (parts : List Part) : Str → Res (List Part)
  | [] => .panic (.unterminatedQuote key)
  | c :: cs =>
    if c = q then
      if cs = [] then .ok (parts ++ [.name b])
      else parseUnquoted b key parts cs
    else parseQuoted (b ++ [c]) q key parts cs
end

/-- `NewKey` (`api/key.go:46-49`). -/
def newKey (s : Str) : Res Key :=
  match parseUnquoted [] s [] s with
  | .ok ps => .ok ⟨s, ps⟩
  | .panic e => .panic e

/-- `Key.Root` (`api/key.go:136-138`): the type assertion `k.parts[0].(string)`. -/
def Key.rootR (k : Key) : Res Str :=
  match k.parts with
  | .name s :: _ => .ok s
  | _ => .panic .typeAssertion

/-- `Key.Root` for keys made by `NewKey`, for which `rootR` succeeds (theorem `C01_root`) (`api/key.go:136-138`). -/
def Key.root (k : Key) : Str :=
  match k.parts with
  | .name s :: _ => s
  | _ => []

/-- The map key for a part (`api/key.go:64-69`, `api/key.go:95-100`). -/
def Part.toValue : Part → Value
  | .idx i => .int i
  | .name s => .str s

/-- The loop of `Bury` (`api/key.go:61-73`) over the parts after the root, innermost last. -/
def buryParts : List Part → Value → Value
  | [], v => v
  | p :: ps, v => .map [(p.toValue, buryParts ps v)]

/-- `Key.Bury` (`api/key.go:61-73`). -/
def Key.bury (k : Key) (v : Value) : Value := buryParts k.parts.tail v

/-- One step of the loop of `Dig` (`api/key.go:84-108`), without the reports to the explainer. -/
def digSegment (p : Part) (v : Value) : Option Value :=
  match v with
  | .arr es => match p with
    | .idx i => if 0 ≤ i ∧ i < es.length then es[i.toNat]? else none
    | .name _ => none
  | .map es => Entries.get es p.toValue
  | _ => none

/-- The loop of `Dig` (`api/key.go:82-113`) without the explainer. -/
def digParts : List Part → Value → Option Value
  | [], v => some v
  | p :: ps, v => match digSegment p v with
    | some w => digParts ps w
    | none => none

/-- `Key.Dig` (`api/key.go:75-115`) without the explainer; the effectful version is `dig` in `Model/Eval.lean`. -/
def Key.digPure (k : Key) (v : Value) : Option Value := digParts k.parts.tail v

end Hiera
