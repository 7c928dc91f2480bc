/- The ways in which one and the same expression can be written in data. -/
import Mathlib.Data.List.Forall2
import Verif.Spec.Interp
import Verif.Model.Config

set_option autoImplicit false

namespace Hiera.Spec

/-- What an expression asks for. -/
inductive Wish
  | nothing
  | var (x : Str)
  | key (x : Str)
  | alias (x : Str)
  | strictAlias (x : Str)
  | literal (x : Str)

/-- What is between `%{` and `}` if nothing is asked for. -/
def blanks : List Str := [[], "::".toList, "''".toList, "\"\"".toList, "'::'".toList, "\"::\"".toList]

/-- What is between `%{` and `}` asks for something: with white space around it or not, with quotes of either kind, for a variable with
its name alone or by `scope`, for a key by `lookup` or by `hiera`. -/
inductive Wishes : Str → Wish → Prop
  | nothing {e t : Str} : Trimmed e t → t ∈ blanks → Wishes e .nothing
  | var {e t : Str} : Trimmed e t → t ∉ blanks → (∀ fn x, ¬Call t fn x) → Wishes e (.var t)
  | scope {e t x : Str} : Trimmed e t → Call t "scope".toList x → Wishes e (.var x)
  | lookup {e t x : Str} : Trimmed e t → Call t "lookup".toList x → Wishes e (.key x)
  | hiera {e t x : Str} : Trimmed e t → Call t "hiera".toList x → Wishes e (.key x)
  | alias {e t x : Str} : Trimmed e t → Call t "alias".toList x → Wishes e (.alias x)
  | strictAlias {e t x : Str} : Trimmed e t → Call t "strict_alias".toList x → Wishes e (.strictAlias x)
  | literal {e t x : Str} : Trimmed e t → Call t "literal".toList x → Wishes e (.literal x)

/-- Two pieces of text are the same, or ask for the same. -/
inductive SamePiece : Tok → Tok → Prop
  | same (t : Tok) : SamePiece t t
  | asks {e e' : Str} {a : Wish} : Wishes e a → Wishes e' a → SamePiece (.expr e) (.expr e')

mutual
/-- Two values are the same, except for how expressions are written in them. -/
inductive Respelled : Value → Value → Prop
  | same (v : Value) : Respelled v v
  | str {s s' : Str} {ts ts' : List Tok} : Splits s ts → Splits s' ts' → List.Forall₂ SamePiece ts ts' → Respelled (.str s) (.str s')
  | arr {vs vs' : List Value} : RespelledL vs vs' → Respelled (.arr vs) (.arr vs')
  | map {es es' : Entries} : RespelledE es es' → Respelled (.map es) (.map es')
inductive RespelledL : List Value → List Value → Prop
  | nil : RespelledL [] []
  | cons {v v' : Value} {vs vs' : List Value} : Respelled v v' → RespelledL vs vs' → RespelledL (v :: vs) (v' :: vs')
inductive RespelledE : Entries → Entries → Prop
  | nil : RespelledE [] []
  | cons {k k' v v' : Value} {es es' : Entries} : Respelled k k' → Respelled v v' → RespelledE es es' →
      RespelledE ((k, v) :: es) ((k', v') :: es')
end

/-- What two files have for each of the keys is the same, except for how expressions are written. -/
inductive RespelledFile : FileRes → FileRes → Prop
  | same (f : FileRes) : RespelledFile f f
  | data {es es' : Entries} : (∀ q, Option.Rel Respelled (Entries.getS es q) (Entries.getS es' q)) →
      RespelledFile (.value (.map es)) (.value (.map es'))

end Hiera.Spec
