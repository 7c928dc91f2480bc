/- `session/interpolate.go`: the lexical part of string interpolation (what the regular expressions match). -/
import Verif.Model.Value

set_option autoImplicit false

namespace Hiera

/-- A piece of a string: one character of plain text, or the text between `%{` and `}` (`session/interpolate.go:14`). -/
inductive Tok
  | chr (c : Char)
  | expr (e : Str)
  deriving DecidableEq

/-- The states of the scanner `tokensFrom` (`session/interpolate.go:14`). -/
inductive Scan
  /-- in plain text -/
  | text
  /-- after a `%` -/
  | percent
  /-- after `%{` and the given characters -/
  | inside (acc : Str)

/-- The scanner behind `tokens` (`session/interpolate.go:14,123`). -/
def tokensFrom : Scan → Str → List Tok
  | .text, [] => []
  | .text, c :: cs => if c = '%' then tokensFrom .percent cs else .chr c :: tokensFrom .text cs
  | .percent, [] => [.chr '%']
  | .percent, c :: cs =>
    if c = '{' then tokensFrom (.inside []) cs
    else if c = '%' then .chr '%' :: tokensFrom .percent cs
    else .chr '%' :: .chr c :: tokensFrom .text cs
  | .inside acc, [] => .chr '%' :: .chr '{' :: acc.map .chr
  | .inside acc, c :: cs =>
    if c = '}' then .expr acc :: tokensFrom .text cs else tokensFrom (.inside (acc ++ [c])) cs

/-- The matches of `iplPattern` (`session/interpolate.go:14`, regular expression `%{[^}]*}`) that
`ReplaceAllStringFunc` (`session/interpolate.go:123`) visits, and the text between them: leftmost, non-overlapping. -/
def tokens (s : Str) : List Tok := tokensFrom .text s

/-- `strings.Contains(str, "%{")` (`session/interpolate.go:116`). -/
def hasMarker : Str → Bool
  | [] => false
  | [_] => false
  | c :: d :: cs => (c == '%' && d == '{') || hasMarker (d :: cs)

/-- `unicode.IsSpace` (Go standard library) (used by `TrimSpace` in `session/interpolate.go:124`). -/
def isSpace (c : Char) : Bool :=
  let n := c.toNat
  (9 ≤ n && n ≤ 13) || n == 32 || n == 0x85 || n == 0xA0 || n == 0x1680 || (0x2000 ≤ n && n ≤ 0x200A) ||
    n == 0x2028 || n == 0x2029 || n == 0x202F || n == 0x205F || n == 0x3000

/-- `strings.TrimSpace` (Go standard library) (used in `session/interpolate.go:124`). -/
def trimSpace (s : Str) : Str := ((s.dropWhile isSpace).reverse.dropWhile isSpace).reverse

/-- `emptyInterpolations` (`session/interpolate.go:15-22`). -/
def emptyInterpolation (e : Str) : Bool :=
  e == [] || e == "::".toList || e == "\"\"".toList || e == "''".toList || e == "\"::\"".toList || e == "'::'".toList

/-- The regular expression class `\w` (`session/interpolate.go:85`). -/
def isWord (c : Char) : Bool :=
  ('a' ≤ c && c ≤ 'z') || ('A' ≤ c && c ≤ 'Z') || ('0' ≤ c && c ≤ '9') || c == '_'

/-- The argument and the end of a method call: `data` up to the quote `q`, which must be followed by `)` and the end
(`session/interpolate.go:85`). -/
def quotedArg (q : Char) (acc : Str) : Str → Option Str
  | [] => none
  | c :: cs => if c = q then (if cs = [')'] ∧ acc ≠ [] then some acc else none) else quotedArg q (acc ++ [c]) cs

/-- `methodMatch.FindStringSubmatch` (`session/interpolate.go:85`, `88`, `92-95`): method name and argument, for
`^(\w+)\((?:["]([^"]+)["]|[']([^']+)['])\)$`. -/
def methodMatch (e : Str) : Option (Str × Str) :=
  match e.takeWhile isWord, e.dropWhile isWord with
  | [], _ => none
  | w, '(' :: q :: rest =>
    if q = '"' ∨ q = '\'' then
      match quotedArg q [] rest with
      | some d => some (w, d)
      | none => none
    else none
  | _, _ => none

/-- `iplMethod` (`session/interpolate.go:71-79`). -/
inductive Method
  | scope
  | alias
  | strictAlias
  | lookup
  | literal
  deriving DecidableEq

/-- `iplMethod.isAlias` (`session/interpolate.go:81-83`). -/
def Method.isAlias : Method → Bool
  | .alias => true
  | .strictAlias => true
  | _ => false

/-- `getMethodAndData` (`session/interpolate.go:87-112`). -/
def getMethodAndData (e : Str) (allowMethods : Bool) : Res (Method × Str) :=
  match methodMatch e with
  | some (m, d) =>
    if !allowMethods then .panic .methodsNotAllowed
    else if m = "alias".toList then .ok (.alias, d)
    else if m = "strict_alias".toList then .ok (.strictAlias, d)
    else if m = "hiera".toList ∨ m = "lookup".toList then .ok (.lookup, d)
    else if m = "literal".toList then .ok (.literal, d)
    else if m = "scope".toList then .ok (.scope, d)
    else .panic (.unknownMethod m)
  | none => .ok (.scope, e)

end Hiera
