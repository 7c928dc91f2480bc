/- Which variables an answer depends on: those that the configuration and the values in reach of a key refer to. -/
import Verif.Spec.Separate

set_option autoImplicit false

namespace Hiera.Spec

/-- A user's lookup function looks up, interpolates and returns only what refers to the given keys and variables, and asks only
for the given variables. (The last two are for completeness: functions that use the cache are not covered by the reference.) -/
inductive ReadsProg (T : Str → Prop) (K : Referent → Prop) : Prog → Prop
  | ret {v} : CleanO (RefersIn T K) v → ReadsProg T K (.ret v)
  | panic {e} : ReadsProg T K (.panic e)
  | interpolate {v k} : WithinV T K v → (∀ x, CleanO T x → ReadsProg T K (k x)) → ReadsProg T K (.interpolate v k)
  | lookup {key opts k} : (∀ kk, newKey key = .ok kk → K (.key kk.root)) → (∀ x, CleanO T x → ReadsProg T K (k x)) →
      ReadsProg T K (.lookup key opts k)
  | explain {t k} : ReadsProg T K k → ReadsProg T K (.explain t k)
  | scopeGet {key k} : K (.var key) → (∀ x, CleanO (RefersIn T K) x → ReadsProg T K (k x)) → ReadsProg T K (.scopeGet key k)
  | cache {key v k} : ReadsProg T K (.cache key v k)
  | cachedValue {key k} : ReadsProg T K (.cachedValue key k)

/-- A set of keys and variables that refer only to each other, whatever the values of the variables are: wherever there is a
value for one of the keys. The lookup options are among them. -/
structure Contained (E : Env) (T : Str → Prop) (K : Referent → Prop) : Prop where
  inert : Inert T
  text : ∀ v, Clean T v → T (E.toStr v)
  options : K (.key "lookup_options".toList)
  /-- the first segment of a key is parsed once more -/
  again : ∀ r k, K (.key r) → newKey r = .ok k → K (.key k.root)
  yaml : ∀ p es q v, E.readYaml p = .value (.map es) → K (.key q) → Entries.getS es q = some v → WithinV T K v
  json : ∀ p es q v, E.readJson p = .value (.map es) → K (.key q) → Entries.getS es q = some v → WithinV T K v
  hash : ∀ f o es q v, Loads E (.hash f) → f o = .ok (some (.map es)) → K (.key q) → Entries.getS es q = some v → WithinV T K v
  dig : ∀ f (k : Key) v, Loads E (.dig f) → K (.key k.root) → f k.parts = .ok (some v) → WithinV T K (k.bury v)
  env : ∀ q v, K (.key q) → envLookup E q = some v → WithinV T K v
  custom : ∀ f o q, Custom E f → K (.key q) → ReadsProg T K (f o q)
  conv : ∀ t x as y, WithinV T K x → (∀ a ∈ as.getD [], WithinV T K a) → E.newValue t x as = .ok y → WithinV T K y

/-- The expressions of a string of the configuration refer only to the given variables. -/
def Mentions (K : Referent → Prop) (s : Str) : Prop :=
  ∀ ts e x i, Splits s ts → Tok.expr e ∈ ts → Trimmed e x → ExprRefers x i → K i

/-- Those of a location. The source of mapped paths is one of them; the template may also refer to
the variable that their values are given to. -/
def LocMentions (K : Referent → Prop) : Loc → Prop
  | .path o _ _ => Mentions K o
  | .glob o => Mentions K o
  | .uri o _ => Mentions K o
  | .mapped src key template => (∀ k, newKey src = .ok k → K (.var k.root)) ∧ Mentions (fun i => K i ∨ i = .var key) template

/-- Those of an entry of a hierarchy. -/
structure EntryMentions (T : Str → Prop) (K : Referent → Prop) (e : Entry) : Prop where
  function : ∀ kind n, e.function = some (kind, n) → RefersIn T K n
  dataDir : Mentions K e.dataDir
  pluginDir : Mentions K e.pluginDir
  options : ∀ os, e.options = some os → WithinV T K (.map os)
  locations : ∀ ls, e.locations = some ls → ∀ l ∈ ls, LocMentions K l

/-- Those of a configuration. -/
structure CfgMentions (T : Str → Prop) (K : Referent → Prop) (c : Cfg) : Prop where
  defaults : EntryMentions T K c.defaults
  hierarchy : ∀ e ∈ c.hierarchy, EntryMentions T K e
  defaultHierarchy : ∀ e ∈ c.defaultHierarchy, EntryMentions T K e

/-- Values of variables may be found as values of keys: by the provider `scope`, or an entry with the function `scope`, or one
whose name is known only when it is interpolated. -/
inductive ScopeAsData (E : Env) (c : Cfg) : Prop
  | loads : Loads E (.key .scope) → ScopeAsData E c
  | mux {fs} : E.muxFns = some fs → LkFn.scope ∈ fs → ScopeAsData E c
  | entry {e n} : e ∈ c.defaults :: c.hierarchy → e.function = some (.lookupKey, n) → n = "scope".toList ∨ Marked n → ScopeAsData E c

/-- Two scopes have the same for the given variables, which refers only to the given keys and variables; and if variables may be
found as values of keys, also for the variables of the same names as the given keys. -/
structure SameVars (T : Str → Prop) (K : Referent → Prop) (data : Prop) (sc sc' : Scope) : Prop where
  vars : ∀ n, K (.var n) → sc'.get n = sc.get n ∧ ∀ v, sc.get n = some v → WithinV T K v
  keys : data → ∀ n, K (.key n) → sc'.get n = sc.get n ∧ ∀ v, sc.get n = some v → WithinV T K v

end Hiera.Spec
