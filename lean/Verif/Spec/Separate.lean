/- Which data an answer depends on: keys that refer only to each other, entries that have nothing, and files that no entry of
the hierarchy leads to. -/
import Verif.Spec.Acyclic
import Verif.Spec.Reference

set_option autoImplicit false

namespace Hiera.Spec

/-- Another world of the same session: another place of the configuration, and other contents of files. -/
abbrev withFiles (E : Env) (configPath : Str) (yaml json : Str → FileRes) : Env :=
  { E with configPath := configPath, readYaml := yaml, readJson := json }

/-! ### Sets of keys and variables -/

/-- A string is tidy, and its expressions refer only to the given keys and variables. -/
def RefersIn (T : Str → Prop) (K : Referent → Prop) (s : Str) : Prop :=
  TidyStr T s ∧ ∀ ts e x i, Splits s ts → Tok.expr e ∈ ts → Trimmed e x → ExprRefers x i → K i

/-- All strings in a value do. -/
abbrev WithinV (T : Str → Prop) (K : Referent → Prop) (v : Value) : Prop := Clean (RefersIn T K) v

/-- A user's lookup function looks up, interpolates and returns only what refers to the given keys and variables. (The last two
are for completeness: functions that use the cache are not covered by the reference.) -/
inductive WithinProg (T : Str → Prop) (K : Referent → Prop) (sc : Scope) : Prog → Prop
  | ret {v} : CleanO (RefersIn T K) v → WithinProg T K sc (.ret v)
  | panic {e} : WithinProg T K sc (.panic e)
  | interpolate {v k} : WithinV T K v → (∀ x, CleanO T x → WithinProg T K sc (k x)) → WithinProg T K sc (.interpolate v k)
  | lookup {key opts k} : (∀ kk, newKey key = .ok kk → K (.key kk.root)) → (∀ x, CleanO T x → WithinProg T K sc (k x)) →
      WithinProg T K sc (.lookup key opts k)
  | explain {t k} : WithinProg T K sc k → WithinProg T K sc (.explain t k)
  | scopeGet {key k} : WithinProg T K sc (k (sc.get key)) → WithinProg T K sc (.scopeGet key k)
  | cache {key v k} : WithinProg T K sc (.cache key v k)
  | cachedValue {key k} : WithinProg T K sc (.cachedValue key k)

/-- A set of keys and variables that refer only to each other: wherever there is a value for one of the keys, and in the
variables. The lookup options are among them. -/
structure SelfContained (E : Env) (T : Str → Prop) (K : Referent → Prop) (sc : Scope) : Prop where
  inert : Inert T
  text : ∀ v, Clean T v → T (E.toStr v)
  options : K (.key "lookup_options".toList)
  /-- the first segment of a key is parsed once more -/
  again : ∀ r k, K (.key r) → newKey r = .ok k → K (.key k.root)
  vars : ∀ n v, K (.var n) → sc.get n = some v → WithinV T K v
  yaml : ∀ p es q v, E.readYaml p = .value (.map es) → K (.key q) → Entries.getS es q = some v → WithinV T K v
  json : ∀ p es q v, E.readJson p = .value (.map es) → K (.key q) → Entries.getS es q = some v → WithinV T K v
  hash : ∀ f o es q v, Loads E (.hash f) → f o = .ok (some (.map es)) → K (.key q) → Entries.getS es q = some v → WithinV T K v
  dig : ∀ f (k : Key) v, Loads E (.dig f) → K (.key k.root) → f k.parts = .ok (some v) → WithinV T K (k.bury v)
  env : ∀ q v, K (.key q) → envLookup E q = some v → WithinV T K v
  scope : ∀ q v, K (.key q) → sc.get q = some v → WithinV T K v
  custom : ∀ f o q, Custom E f → K (.key q) → WithinProg T K sc (f o q)
  conv : ∀ t x as y, WithinV T K x → (∀ a ∈ as.getD [], WithinV T K a) → E.newValue t x as = .ok y → WithinV T K y

/-- The contents of a file are the same for the given keys. -/
inductive SameFor (K : Referent → Prop) : FileRes → FileRes → Prop
  | same {r} : SameFor K r r
  | maps {es es'} : (∀ q, K (.key q) → Entries.getS es q = Entries.getS es' q) → SameFor K (.value (.map es)) (.value (.map es'))

/-! ### Entries that have nothing -/

/-- There is nothing under any of the given keys in the data that an entry has at a location, or in that of an entry without
locations. -/
def NothingIn (E : Env) (K : Referent → Prop) (e : Entry) (l : Option Loc) : Prop :=
  ∃ n h, e.function = some (.dataHash, n) ∧ refHash E e n (refOpts e l) = .ok h ∧ ∀ q, K (.key q) → Entries.getS h q = none

/-- A resolved entry that has nothing under any of the given keys: all of its locations are paths where there is no file, or
have other keys only. -/
def SilentFor (E : Env) (K : Referent → Prop) (e : Entry) : Prop :=
  match e.locations with
  | none => NothingIn E K e none
  | some ls => ∀ l ∈ ls, (∃ o r, l = .path o r false) ∨ NothingIn E K e (some l)

/-- In the given configuration and scope, an entry is resolved without an error and then has nothing under the given keys. -/
def Silent (E : Env) (K : Referent → Prop) (sc : Scope) (c : Cfg) (e : Entry) : Prop :=
  ∃ n d x, refResolve E (ref E none n) ⟨sc, .call⟩ none c.defaults = some (.ok d) ∧
    refResolve E (ref E none n) ⟨sc, .call⟩ (some d) e = some (.ok x) ∧ SilentFor E K x

/-! ### Files -/

/-- The paths that the entries of a resolved hierarchy read data at. -/
def ReadsAt (E : Env) (es : List Entry) (p : Str) : Prop :=
  ∃ e ∈ es, (e.locations = none ∧ ∃ v, Entries.getS (refOpts e none) "path".toList = some v ∧ E.toStr v = p) ∨
    ∃ ls, e.locations = some ls ∧ ∃ l ∈ ls, l.resolved = p

end Hiera.Spec
