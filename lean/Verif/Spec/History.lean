/- What "earlier lookups" are, and the functions that keep nothing between lookups. -/
import Verif.Model.Eval

set_option autoImplicit false

namespace Hiera.Spec

/-- A lookup function of a user that does not use the cache. -/
inductive TameProg : Prog → Prop
  | ret (v : Option Value) : TameProg (.ret v)
  | panic (e : Err) : TameProg (.panic e)
  | interpolate (v : Value) (k : Option Value → Prog) : (∀ r, TameProg (k r)) → TameProg (.interpolate v k)
  | lookup (key : Str) (opts : Entries) (k : Option Value → Prog) : (∀ r, TameProg (k r)) → TameProg (.lookup key opts k)
  | explain (text : Str) (k : Prog) : TameProg k → TameProg (.explain text k)
  | scopeGet (key : Str) (k : Option Value → Prog) : (∀ r, TameProg (k r)) → TameProg (.scopeGet key k)

/-- A lookup function that keeps nothing between lookups and uses no configuration but the session's. -/
def Tame : LkFn → Prop
  | .yaml => False
  | .module => False
  | .custom f => ∀ o k, TameProg (f o k)
  | _ => True

/-- All lookup functions of a session are tame. -/
structure TameEnv (E : Env) : Prop where
  top : Tame E.top
  mux : ∀ fs f, E.muxFns = some fs → f ∈ fs → Tame f
  fns : ∀ n f, E.functions n = some (.key f) → Tame f
  plugins : ∀ path n f, E.pluginFn path n = .ok (some (.key f)) → Tame f

/-- Lookups start with the configuration of the session: it is the top provider, or the first of several (as for the
command line and the REST server). -/
def ConfigFirst (E : Env) : Prop := E.top = .config ∨ (E.top = .mux ∧ ∃ fs, E.muxFns = some (.config :: fs))

/-- What a lookup gives: a value, nothing, or an error. -/
def Gives (E : Env) (s : St) (k : Key) (opts : Entries) (r : Res (Option Value)) : Prop :=
  ∃ n t, (eval E n).lookup k opts s = some (r, t)

/-- `s` is the state after some lookups, with whatever results, from `s0`. -/
inductive History (E : Env) (s0 : St) : St → Prop
  | start : History E s0 s0
  | lookup {s t : St} {r : Res (Option Value)} (n : Nat) (k : Key) (opts : Entries) : History E s0 s →
      (eval E n).lookup k opts s = some (r, t) → History E s0 t

end Hiera.Spec
