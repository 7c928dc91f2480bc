/-
  Specifications for the command line.
-/
import Verif.Model.Cli
import Verif.Spec.Interp

set_option autoImplicit false

namespace Hiera.Spec

/-- A separator between name and value. -/
def IsSep (c : Char) : Prop := c = ':' ∨ c = '='

/-- The argument consists of a name, a separator and a value, and the separator stands alone: there is a character that is
no separator on either side of it. -/
def LoneSep (arg name value : Str) : Prop :=
  ∃ pre c sep d tail, arg = name ++ sep :: value ∧ name = pre ++ [c] ∧ value = d :: tail ∧ IsSep sep ∧ ¬IsSep c ∧ ¬IsSep d

/-- The first of these. -/
def FirstLoneSep (arg name value : Str) : Prop :=
  LoneSep arg name value ∧ ∀ n v, LoneSep arg n v → name.length ≤ n.length

/-- A split that a regular expression finds in which `.` stands for any character but a newline: the name has no newline but
for its last character, and the value none but for its first. -/
def LineSep (arg name value : Str) : Prop := LoneSep arg name value ∧ '\n' ∉ name.dropLast ∧ '\n' ∉ value.tail

/-- The last definition of a key in a list of definitions. -/
def LastDef (defs : List (Value × Value)) (k v : Value) : Prop :=
  ∃ pre k' post, defs = pre ++ (k', v) :: post ∧ k.equals k' = true ∧ ∀ e ∈ post, k.equals e.1 = false

/-- The value of a variable on the command line: the trimmed text, unless it starts with a brace, bracket or quote; then it
is parsed. -/
inductive VarValue (C : CliEnv) : Str → Value → Prop
  | text {s t} : Trimmed s t → (∀ c, t.head? = some c → c ∉ ['{', '[', '"', '\'']) → VarValue C s (.str t)
  | parsed {s t c v} : Trimmed s t → t.head? = some c → c ∈ ['{', '[', '"', '\''] → C.parseValue t = .ok v → VarValue C s v

/-- The definitions that the `--var` arguments make. -/
inductive ArgDefs (C : CliEnv) : List Str → List (Value × Value) → Prop
  | nil : ArgDefs C [] []
  | cons {arg n n' v w args defs} : LineSep arg n v → (∀ a b, LineSep arg a b → n.length ≤ a.length) → Trimmed n n' → VarValue C v w →
      ArgDefs C args defs → ArgDefs C (arg :: args) ((.str n', w) :: defs)

/-- The definitions that files make, in the order of the files; standard input (named `-`) can be read only once. -/
inductive FileDefs (C : CliEnv) : VarFile → List Str → List (Value × Value) → VarFile → Prop
  | nil {i} : FileDefs C i [] [] i
  | stdin {es ps defs i} : FileDefs C .empty ps defs i → FileDefs C (.value (.map es)) (['-'] :: ps) (es ++ defs) i
  | stdinEmpty {ps defs i} : FileDefs C .empty ps defs i → FileDefs C .empty (['-'] :: ps) defs i
  | file {i p es ps defs j} : p ≠ ['-'] → C.readFile p = .value (.map es) → FileDefs C i ps defs j → FileDefs C i (p :: ps) (es ++ defs) j
  | fileEmpty {i p ps defs j} : p ≠ ['-'] → C.readFile p = .empty → FileDefs C i ps defs j → FileDefs C i (p :: ps) defs j

/-- The values that come from outside are well formed. -/
structure CliWF (C : CliEnv) : Prop where
  parse : ∀ s v, C.parseValue s = .ok v → v.WF
  file : ∀ p v, C.readFile p = .value v → v.WF
  stdin : ∀ v, C.stdin = .value v → v.WF

end Hiera.Spec
