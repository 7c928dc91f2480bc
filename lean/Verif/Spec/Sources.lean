/- What the values that hiera handles come from, and what a session does with them. -/
import Verif.Model.Session

set_option autoImplicit false

namespace Hiera.Spec
open Value

section
variable (V : Value → Prop)

/-- If there is a value, it has the property. -/
def OptV (r : Option Value) : Prop := ∀ x, r = some x → V x

/-- A user's function hands on values with the property, if it gets such. -/
def ProgOk : Prog → Prop
  | .ret v => OptV V v
  | .panic _ => True
  | .interpolate v k => V v ∧ ∀ r, OptV V r → ProgOk (k r)
  | .lookup _ opts k => V (.map opts) ∧ ∀ r, OptV V r → ProgOk (k r)
  | .explain _ k => ProgOk k
  | .cache _ v k => V v ∧ ∀ r, OptV V r → ProgOk (k r)
  | .cachedValue _ k => ∀ r, OptV V r → ProgOk (k r)
  | .scopeGet _ k => ∀ r, OptV V r → ProgOk (k r)

/-- The same for lookup functions. -/
def LkOk : LkFn → Prop
  | .custom f => ∀ opts k, V (.map opts) → ProgOk V (f opts k)
  | _ => True

/-- The same for the functions of the loader. -/
def FnOk : Fn → Prop
  | .hash f => ∀ opts v, V (.map opts) → f opts = .ok (some v) → V v
  | .dig f => ∀ ps v, f ps = .ok (some v) → V v
  | .key f => LkOk V f

end

/-- All that values can come from, apart from variables: data files, the functions of the loader and of plugins, the
function at the top, and the constructors of types. What these give has the property `V`, if what they are given has it. -/
structure Sources (E : Env) (V : Value → Prop) : Prop where
  yaml : ∀ p v, E.readYaml p = .value v → V v
  json : ∀ p v, E.readJson p = .value v → V v
  functions : ∀ n f, E.functions n = some f → FnOk V f
  plugins : ∀ p n f, E.pluginFn p n = .ok (some f) → FnOk V f
  top : LkOk V E.top
  mux : ∀ fs, E.muxFns = some fs → ∀ f ∈ fs, LkOk V f
  newValue : ∀ t v as w, V v → (∀ l, as = some l → ∀ a ∈ l, V a) → E.newValue t v as = .ok w → V w

/-- The states that a session can be in when all variables and all options of lookups have the property `V`: invocations
are made one after the other, and each makes any number of lookups, with any outcome. -/
inductive Served (E : Env) (V : Value → Prop) : St → Prop
  | start {scope : Scope} (ex : Option ExplOpts) : (∀ k, OptV V (scope.get k)) → Served E V (newInvocation scope ex)
  | invocation {s : St} {scope : Scope} (ex : Option ExplOpts) : Served E V s → (∀ k, OptV V (scope.get k)) →
    Served E V (nextInvocation s scope ex)
  | among {s : St} (ahead : List Ev → Str → Bool) : Served E V s → Served E V (s.among ahead)
  | lookup {s t : St} {n : Nat} {key : Str} {k : Key} {opts : Entries} {r : Res (Option Value)} : Served E V s →
    newKey key = .ok k → V (.map opts) → (eval E n).lookup k opts s = some (r, t) → Served E V t

end Hiera.Spec
