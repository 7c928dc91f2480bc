/- Ordinary set-ups with modules: a configuration, modules with configurations of their own, and the answers that lookups of
keys of modules should have. Nothing here refers to the model of the code, except for the names of values, of what is outside, and of
the lower case of a name. -/
import Verif.Spec.Referring
import Verif.Spec.Provider

set_option autoImplicit false

namespace Hiera.Spec
open Value

/-- The same, with another configuration file. -/
def atFile (E : Env) (p : Str) : Env := { E with configPath := p }

/-- A module: its name, in lower case, its configuration file, and the levels in it. -/
structure Module where
  name : Str
  config : Str
  levels : List Level

/-- The module that a key belongs to. A key whose name has no module before its first `::` belongs to none, and so does one of a
module that no directory of the module path has. Else it is the module in the first directory that has it. -/
inductive Belongs (E : Env) (sc : Scope) (key : Str) : Option Module → Prop
  | nowhere : (∀ n, BeforeColons key n → n = []) → Belongs E sc key none
  | unknown {n} : BeforeColons key n → n ≠ [] → (∀ d ∈ E.modulePath.getD [], CaseDistinct E d ∧ Lacks E n d) → Belongs E sc key none
  | module {n d cp ls} {pre post : List Str} : BeforeColons key n → n ≠ [] → E.modulePath = some (pre ++ d :: post) →
      (∀ e ∈ pre, CaseDistinct E e ∧ Lacks E n e) → CaseDistinct E d → Holds E n d cp → cp ≠ E.configPath →
      Ordinary (atFile E cp) sc ls → Belongs E sc key (some ⟨toLower n, cp, ls⟩)

/-- The levels of the module, if there is one. -/
def levelsOf (md : Option Module) : List Level := (md.map Module.levels).getD []

/-- The levels of the module whose lookup options count: those of the module, if the key starts with its name as it is in lower
case. -/
def heeded (key : Str) (md : Option Module) : List Level :=
  match md with
  | some m => if (m.name ++ "::".toList).isPrefixOf key then m.levels else []
  | none => []

/-- What a value in data means: itself, if no string in it has `%{`, or else what it means with the values of variables in the place of
expressions. -/
inductive Fills (E : Env) (sc : Scope) : Value → Value → Prop
  | plain {v} : Unmarked v → Fills E sc v v
  | vars {t w} : t.Ok → (∀ x fs, DataPiece.key x fs ∉ t.uses) → (∀ x fs, DataPiece.var x fs ∈ t.uses → ∀ v, sc.get x = some v → NoPercent v) →
      (∀ v, NoPercent v → '%' ∉ E.render v) → Meant E sc [] t w → Fills E sc t.written w

/-- What the lookup of a key is asked under: the strategy is `st`. -/
structure ModuleQuestion (E : Env) (sc : Scope) (ls : List Level) (md : Option Module) (root : Str) (opts : Entries) (st : Str) : Prop where
  setup : Ordinary E sc ls
  top : E.top = .mux ∧ E.muxFns = some [.config, .module]
  belongs : Belongs E sc root md
  part : KeyPart root
  ordinary : root ≠ "lookup_options".toList
  values : ∀ v ∈ valuesOf (ls ++ levelsOf md) root, ∃ w, Fills E sc v w
  options : ∀ v ∈ valuesOf (ls ++ levelsOf md) "lookup_options".toList, Unmarked v ∧ OptionsAre root v
  merge : MergedBy (ls ++ heeded root md) root opts st

/-- The answer: the values of the configuration, merged, and the values of the module, merged, are merged in the same way. -/
def ModuleAnswer (st : Str) (vs ws : List Value) (v : Option Value) : Prop :=
  ∃ a b, Textbook st vs a ∧ Textbook st ws b ∧ Textbook st (a.toList ++ b.toList) v

/-- Lookups, one after the other, of keys of the configuration and of the modules that there are (by the file of the configuration). -/
inductive Looked (E : Env) (sc : Scope) (ls : List Level) (mods : Str → Option Module) : St → St → Prop
  | nothing {s} : Looked E sc ls mods s s
  | more {s t u md root opts st fs k n r} : Looked E sc ls mods s t → ModuleQuestion E sc ls md root opts st →
      (∀ m, md = some m → mods m.config = some m) → st ∈ ["first".toList, "unique".toList, "hash".toList, "deep".toList] →
      (∀ f ∈ fs, KeyPart f) → newKey (joinDots (root :: fs)) = .ok k → (eval E n).lookup k opts t = some (r, u) → Looked E sc ls mods s u

end Hiera.Spec
