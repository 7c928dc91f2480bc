/-
  Specifications for interpolation: how a string divides into text and expressions, which expressions are function
  calls, and what a collection becomes.
-/
import Verif.Model.Interp

set_option autoImplicit false

namespace Hiera.Spec

/-- A string starts with an expression: `%{`, characters other than `}`, and `}`. -/
def StartsExpr (s : Str) : Prop := ∃ e rest, '}' ∉ e ∧ s = '%' :: '{' :: e ++ '}' :: rest

/-- How a string divides into text and expressions, from left to right. -/
inductive Splits : Str → List Tok → Prop
  | nil : Splits [] []
  | expr {e rest ts} : '}' ∉ e → Splits rest ts → Splits ('%' :: '{' :: e ++ '}' :: rest) (.expr e :: ts)
  | chr {c rest ts} : ¬StartsExpr (c :: rest) → Splits rest ts → Splits (c :: rest) (.chr c :: ts)

/-- The string has the marker `%{` somewhere. -/
def Marked (s : Str) : Prop := ∃ a b, s = a ++ '%' :: '{' :: b

/-- The white space of Unicode (the characters with the property `White_Space`). -/
def whiteSpace : Str :=
  ['\t', '\n', '\u000b', '\u000c', '\r', ' ', '\u0085', '\u00a0', '\u1680', '\u2000', '\u2001', '\u2002', '\u2003', '\u2004', '\u2005',
    '\u2006', '\u2007', '\u2008', '\u2009', '\u200a', '\u2028', '\u2029', '\u202f', '\u205f', '\u3000']

/-- `t` is `s` without the white space around it. -/
def Trimmed (s t : Str) : Prop :=
  (∃ a b, s = a ++ t ++ b ∧ (∀ c ∈ a, c ∈ whiteSpace) ∧ ∀ c ∈ b, c ∈ whiteSpace) ∧
  (∀ c, t.head? = some c → c ∉ whiteSpace) ∧ (∀ c, t.getLast? = some c → c ∉ whiteSpace)

/-- A function call: a name of letters, digits and underscores, and one non-empty argument in quotes of either kind,
without that quote in it. -/
def Call (x name arg : Str) : Prop :=
  name ≠ [] ∧ (∀ c ∈ name, c.isAlphanum = true ∨ c = '_') ∧ arg ≠ [] ∧
  ∃ q, (q = '\'' ∨ q = '"') ∧ q ∉ arg ∧ x = name ++ '(' :: q :: arg ++ [q, ')']

/-- An expression that is a call of `alias` or `strict_alias`, modulo white space. -/
def AliasCall (e : Str) : Prop :=
  ∃ x name arg, Trimmed e x ∧ Call x name arg ∧ (name = "alias".toList ∨ name = "strict_alias".toList)

mutual
/-- No string in the value, at any depth, has the marker `%{`. -/
inductive Plain : Value → Prop
  | str {s} : ¬Marked s → Plain (.str s)
  | arr {es} : PlainL es → Plain (.arr es)
  | map {es} : PlainE es → Plain (.map es)
  | null : Plain .null
  | bool {b} : Plain (.bool b)
  | int {i} : Plain (.int i)
  | sensitive {v} : Plain (.sensitive v)
  | opaque {n} : Plain (.opaque n)
/-- All elements are plain. -/
inductive PlainL : List Value → Prop
  | nil : PlainL []
  | cons {v vs} : Plain v → PlainL vs → PlainL (v :: vs)
/-- All keys and values are plain. -/
inductive PlainE : List (Value × Value) → Prop
  | nil : PlainE []
  | cons {k v es} : Plain k → Plain v → PlainE es → PlainE ((k, v) :: es)
end

end Hiera.Spec
