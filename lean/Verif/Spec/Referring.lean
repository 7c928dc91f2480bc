/- An ordinary set-up (`Spec/Ordinary.lean`) whose data refers to variables and to other keys: what values mean, and the answers to
lookups. Nothing here refers to the model of the code, except for the names of values and of what is outside. -/
import Verif.Spec.Ordinary

set_option autoImplicit false

namespace Hiera.Spec
open Value

/-! ### How data is written -/

/-- A piece of text: text, the value of a variable, or the value of another key, perhaps with the names of fields in it. -/
inductive DataPiece
  | text (t : Str)
  | var (name : Str) (fields : List Str)
  | key (name : Str) (fields : List Str)

/-- A part of a key that is written in an expression. -/
def RefPart (x : Str) : Prop := KeyPart x ∧ '}' ∉ x

def DataPiece.Ok : DataPiece → Prop
  | .text t => '%' ∉ t
  | .var x fs => Name x ∧ ∀ f ∈ fs, Name f
  | .key x fs => RefPart x ∧ ∀ f ∈ fs, RefPart f

/-- An expression: `%{`, what is in it, and `}`. -/
def braces (e : Str) : Str := '%' :: '{' :: e ++ ['}']

/-- A call of a function: its name, and its argument in quotes. -/
def called (fn : Str) (arg : Str) : Str := fn ++ '(' :: '\'' :: arg ++ ['\'', ')']

/-- How a piece is written. -/
def DataPiece.written : DataPiece → Str
  | .text t => t
  | .var x fs => braces (joinDots (x :: fs))
  | .key x fs => braces (called "lookup".toList (joinDots (x :: fs)))

example : DataPiece.written (.key "a".toList ["b".toList]) = "%{lookup('a.b')}".toList := by decide

/-- What data is written as: a plain value, text with expressions, the value of another key, or an array or a hash of these. -/
inductive Template
  | plain (v : Value)
  | text (ps : List DataPiece)
  | alias (name : Str) (fields : List Str)
  | arr (ts : List Template)
  | map (es : List (Str × Template))

mutual
def Template.written : Template → Value
  | .plain v => v
  | .text ps => .str (ps.flatMap DataPiece.written)
  | .alias x fs => .str (braces (called "alias".toList (joinDots (x :: fs))))
  | .arr ts => .arr (writtenL ts)
  | .map es => .map (writtenE es)
def writtenL : List Template → List Value
  | [] => []
  | t :: ts => t.written :: writtenL ts
def writtenE : List (Str × Template) → Entries
  | [] => []
  | (k, t) :: es => (.str k, t.written) :: writtenE es
end

/-- No text in a value, at any depth, has a percent sign in it. -/
def NoPercent (v : Value) : Prop := Clean (fun s => '%' ∉ s) v

mutual
/-- There are no percent signs, except in the expressions, and the keys of hashes differ. -/
def Template.Ok : Template → Prop
  | .plain v => NoPercent v ∧ WF v
  | .text ps => ∀ p ∈ ps, p.Ok
  | .alias x fs => RefPart x ∧ ∀ f ∈ fs, RefPart f
  | .arr ts => OkL ts
  | .map es => OkE es ∧ (es.map (·.1)).Nodup
def OkL : List Template → Prop
  | [] => True
  | t :: ts => t.Ok ∧ OkL ts
def OkE : List (Str × Template) → Prop
  | [] => True
  | (k, t) :: es => '%' ∉ k ∧ t.Ok ∧ OkE es
end

mutual
/-- The expressions in data. -/
def Template.uses : Template → List DataPiece
  | .plain _ => []
  | .text ps => ps
  | .alias x fs => [.key x fs]
  | .arr ts => usesL ts
  | .map es => usesE es
def usesL : List Template → List DataPiece
  | [] => []
  | t :: ts => t.uses ++ usesL ts
def usesE : List (Str × Template) → List DataPiece
  | [] => []
  | (_, t) :: es => t.uses ++ usesE es
end

/-! ### Levels -/

/-- A level: its name, its path, and what its file has, if there is one. -/
structure Sheet where
  name : Str
  path : List PathPiece
  data : Option (List (Str × Template))

def Sheet.level (l : Sheet) : Level := ⟨l.name, l.path, l.data.map writtenE⟩

/-- What a level has for a key. -/
def Sheet.has (l : Sheet) (key : Str) : Option Template :=
  l.data.bind (fun es => (es.find? (fun e => key = e.1)).map (·.2))

/-- What the levels have for a key, the highest level first. -/
def templatesOf (ls : List Sheet) (key : Str) : List Template := ls.filterMap (fun l => l.has key)

/-! ### What data means -/

/-- The text of a value: nothing if there is no value, text for itself. -/
def textIn (E : Env) : Option Value → Str
  | none => []
  | some (.str t) => t
  | some v => E.render v

section
variable (E : Env) (sc : Scope) (ls : List Sheet)

mutual
/-- What data means: the values that it refers to are those of the variables, and the answers for the other keys. -/
inductive Meant : Template → Value → Prop
  | plain {v} : Meant (.plain v) v
  | text {ps t} : MeantText ps t → Meant (.text ps) (.str t)
  /-- the value of the other key, and empty text if it has none -/
  | alias {x fs v} : Answered x [] v → Meant (.alias x fs) ((v.bind (fieldOf fs)).getD (.str []))
  | arr {ts vs} : MeantL ts vs → Meant (.arr ts) (.arr vs)
  | map {es vs} : MeantE es vs → Meant (.map es) (.map vs)
inductive MeantText : List DataPiece → Str → Prop
  | nil : MeantText [] []
  | text {t ps u} : MeantText ps u → MeantText (.text t :: ps) (t ++ u)
  | var {x fs ps u} : MeantText ps u → MeantText (.var x fs :: ps) (textIn E ((sc.get x).bind (fieldOf fs)) ++ u)
  | key {x fs v ps u} : Answered x [] v → MeantText ps u → MeantText (.key x fs :: ps) (textIn E (v.bind (fieldOf fs)) ++ u)
inductive MeantL : List Template → List Value → Prop
  | nil : MeantL [] []
  | cons {t v ts vs} : Meant t v → MeantL ts vs → MeantL (t :: ts) (v :: vs)
inductive MeantE : List (Str × Template) → Entries → Prop
  | nil : MeantE [] []
  | cons {k t v es vs} : Meant t v → MeantE es vs → MeantE ((k, t) :: es) ((.str k, v) :: vs)
/-- The answer for a key: the merge of what the data of the levels means. -/
inductive Answered : Str → Entries → Option Value → Prop
  | merge {key opts st vs v} : MeantL (templatesOf ls key) vs → MergedBy (ls.map Sheet.level) key opts st → Textbook st vs v →
      Answered key opts v
end
end

end Hiera.Spec
