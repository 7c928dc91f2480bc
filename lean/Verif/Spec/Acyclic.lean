/-
  Which keys and variables data refers to, by its text, and what it means that there is no cycle in it.
-/
import Mathlib.Logic.Relation
import Verif.Spec.Interp
import Verif.Model.Eval

set_option autoImplicit false

namespace Hiera.Spec

/-- The strings in a value, at any depth, but not inside sensitive values. -/
inductive Occurs : Value → Str → Prop
  | str {s} : Occurs (.str s) s
  | elem {es v s} : v ∈ es → Occurs v s → Occurs (.arr es) s
  | key {es k v s} : (k, v) ∈ es → Occurs k s → Occurs (.map es) s
  | val {es k v s} : (k, v) ∈ es → Occurs v s → Occurs (.map es) s

/-- A kind of text that has no expressions, and in which none come about when texts of this kind are put together. -/
structure Inert (T : Str → Prop) : Prop where
  nil : T []
  append {s t} : T s → T t → T (s ++ t)
  unmarked {s} : T s → ¬Marked s

/-- All strings in a value are of the given kind. -/
def Clean (T : Str → Prop) (v : Value) : Prop := ∀ s, Occurs v s → T s

/-- The same for a value that may be absent. -/
def CleanO (T : Str → Prop) (v : Option Value) : Prop := ∀ x, v = some x → Clean T x

/-- The text between expressions, and that in calls of `literal`, is of the given kind. -/
inductive TidyToks (T : Str → Prop) : List Tok → Prop
  | nil : TidyToks T []
  | text {s ts} : T s → TidyToks T ts → TidyToks T (s.map .chr ++ ts)
  | expr {e ts} : (∀ x arg, Trimmed e x → Call x "literal".toList arg → T arg) → TidyToks T ts → TidyToks T (.expr e :: ts)

/-- The same for a string. -/
def TidyStr (T : Str → Prop) (s : Str) : Prop := ∀ ts, Splits s ts → TidyToks T ts

/-- All strings in a value are tidy. -/
def Tidy (T : Str → Prop) (v : Value) : Prop := ∀ s, Occurs v s → TidyStr T s

/-- What an expression may refer to: a key, by its root, or a variable of the scope. -/
inductive Referent
  | key (root : Str)
  | var (name : Str)

/-- The names of the interpolation functions that look up a key. -/
def lookupFunctions : List Str := ["lookup".toList, "hiera".toList, "alias".toList, "strict_alias".toList]

/-- What the expression `%{x}` refers to. -/
inductive ExprRefers (x : Str) : Referent → Prop
  | key {name arg k} : Call x name arg → name ∈ lookupFunctions → newKey arg = .ok k → ExprRefers x (.key k.root)
  | scope {arg k} : Call x "scope".toList arg → newKey arg = .ok k → ExprRefers x (.var k.root)
  | var {k} : (∀ name arg, ¬Call x name arg) → newKey x = .ok k → ExprRefers x (.var k.root)

/-- A value refers to an item: by an expression in one of its strings. -/
def Refers (v : Value) (i : Referent) : Prop :=
  ∃ s ts e x, Occurs v s ∧ Splits s ts ∧ Tok.expr e ∈ ts ∧ Trimmed e x ∧ ExprRefers x i

/-- What a user's lookup function gets from a variable: its value in the given scope, or text. -/
def GotVar (T : Str → Prop) (sc : Scope) (n : Str) (v : Option Value) : Prop := v = sc.get n ∨ CleanO T v

/-- A run of a user's lookup function gets from one place to another. It gets text from lookups and interpolations,
and anything from the cache. -/
inductive Next (T : Str → Prop) (sc : Scope) : Prog → Prog → Prop
  | lookup {key opts f x} : CleanO T x → Next T sc (.lookup key opts f) (f x)
  | interpolate {v f x} : CleanO T x → Next T sc (.interpolate v f) (f x)
  | explain {t p} : Next T sc (.explain t p) p
  | cache {key v f x} : Next T sc (.cache key v f) (f x)
  | cachedValue {key f x} : Next T sc (.cachedValue key f) (f x)
  | scopeGet {key f x} : GotVar T sc key x → Next T sc (.scopeGet key f) (f x)

/-- A user's lookup function looks up a key with the given root. -/
def Looks (T : Str → Prop) (sc : Scope) (p : Prog) (r : Str) : Prop :=
  ∃ key opts f k, Relation.ReflTransGen (Next T sc) p (.lookup key opts f) ∧ newKey key = .ok k ∧ k.root = r

/-- A user's lookup function interpolates or returns a value. -/
def Uses (T : Str → Prop) (sc : Scope) (p : Prog) (v : Value) : Prop :=
  Relation.ReflTransGen (Next T sc) p (.ret (some v)) ∨ ∃ f, Relation.ReflTransGen (Next T sc) p (.interpolate v f)

/-- A user's lookup function puts a value into the cache. -/
def Puts (T : Str → Prop) (sc : Scope) (p : Prog) (v : Value) : Prop :=
  ∃ key f, Relation.ReflTransGen (Next T sc) p (.cache key v f)

/-- A function that an entry of a hierarchy may name. -/
def Loads (E : Env) (f : Fn) : Prop := ∃ n, E.functions n = some f ∨ ∃ p, E.pluginFn p n = .ok (some f)

/-- A user's lookup function that a lookup may call. -/
def Custom (E : Env) (f : Entries → Str → Prog) : Prop :=
  Loads E (.key (.custom f)) ∨ E.top = .custom f ∨ ∃ fs, E.muxFns = some fs ∧ LkFn.custom f ∈ fs

/-- A map of data by keys. -/
inductive DataMap (E : Env) (T : Str → Prop) (sc : Scope) : Entries → Prop
  | yaml {p es} : E.readYaml p = .value (.map es) → DataMap E T sc es
  | json {p es} : E.readJson p = .value (.map es) → DataMap E T sc es
  | hash {f opts es} : Loads E (.hash f) → f opts = .ok (some (.map es)) → DataMap E T sc es
  /-- put into the cache, where `YamlLookupKey` looks for its map -/
  | cached {f opts key es} : Custom E f → Puts T sc (f opts key) (.map es) → DataMap E T sc es

/-- The names under which data is asked for, for a key with the given root: the root, or the root of what it becomes when
it is parsed once more. -/
def AskedAs (r q : Str) : Prop := q = r ∨ ∃ k, newKey r = .ok k ∧ k.root = q

/-- The values that there may be for a key with the given root before the last interpolation. -/
inductive Source (E : Env) (T : Str → Prop) (sc : Scope) : Str → Value → Prop
  | data {r q es v} : AskedAs r q → DataMap E T sc es → Entries.getS es q = some v → Source E T sc r v
  | env {r q v} : AskedAs r q → envLookup E q = some v → Source E T sc r v
  | scope {r q v} : AskedAs r q → sc.get q = some v → Source E T sc r v
  | custom {r q f opts v} : AskedAs r q → Custom E f → Uses T sc (f opts q) v → Source E T sc r v
  | dig {r k f v} : newKey r = .ok k → Loads E (.dig f) → f k.parts = .ok (some v) → Source E T sc r (k.bury v)
  /-- lookup options, which a lookup made while looking for lookup options gets as a value -/
  | options {r v} : Source E T sc "lookup_options".toList v → Source E T sc r v
  /-- conversions: `w s` is a value in which the string `s` comes from -/
  | conv {r t x as y} (w : Str → Value) :
      (∀ a ∈ x :: as.getD [], ∀ s, Occurs a s → ¬T s → Occurs (w s) s) →
      (∀ a ∈ x :: as.getD [], ∀ s, Occurs a s → ¬T s → Source E T sc r (w s)) →
      E.newValue t x as = .ok y → Source E T sc r y

/-- All strings of a value are of the given kind or occur in values that there may be for a key. -/
def Made (E : Env) (T : Str → Prop) (sc : Scope) (r : Str) (v : Value) : Prop :=
  ∀ s, Occurs v s → ¬T s → ∃ w, Occurs w s ∧ Source E T sc r w

/-- One item needs another: its values refer to it, or a function called for it looks it up. All keys need the lookup
options. -/
inductive Needs (E : Env) (T : Str → Prop) (sc : Scope) : Referent → Referent → Prop
  | ref {r v i} : Source E T sc r v → Refers v i → Needs E T sc (.key r) i
  | fn {r q f opts r'} : AskedAs r q → Custom E f → Looks T sc (f opts q) r' → Needs E T sc (.key r) (.key r')
  | options {r} : r ≠ "lookup_options".toList → Needs E T sc (.key r) (.key "lookup_options".toList)
  | var {n v i} : sc.get n = some v → Refers v i → Needs E T sc (.var n) i

/-- The text of all data and variables is of the given kind, the functions of entries are not those that look through a
hierarchy themselves, and `MuxLookupKey` is not among its own functions. -/
structure Regular (E : Env) (T : Str → Prop) (sc : Scope) : Prop where
  inert : Inert T
  keys : ∀ r v, Source E T sc r v → Tidy T v
  vars : ∀ n v, sc.get n = some v → Tidy T v
  text : ∀ v, Clean T v → T (E.toStr v)
  entries : ∀ f, Loads E (.key f) → f ≠ .config ∧ f ≠ .mux ∧ f ≠ .module
  mux : ∀ fs, E.muxFns = some fs → LkFn.mux ∉ fs

/-- No item needs itself, not even indirectly, and only finitely many are needed by others. -/
structure Acyclic (E : Env) (T : Str → Prop) (sc : Scope) : Prop where
  irrefl : ∀ i, ¬Relation.TransGen (Needs E T sc) i i
  finite : ∃ l : List Referent, ∀ i j, Needs E T sc i j → j ∈ l

/-- The state of an invocation with the given scope, in which no lookup has failed to load a configuration. What it
remembers is data that there is. -/
structure Usable (E : Env) (T : Str → Prop) (sc : Scope) (v : View) : Prop where
  scope : ∀ n x, v.ic.scope.get n = some x → sc.get n = some x ∨ Clean T x
  locked : v.locked = []
  hashes : ∀ i es q x, (i, es) ∈ v.hashes → Entries.getS es q = some x → ∃ es', DataMap E T sc es' ∧ Entries.getS es' q = some x
  cache : ∀ es q x, ("yaml::data".toList, Value.map es) ∈ v.cache → Entries.getS es q = some x →
    ∃ es', DataMap E T sc es' ∧ Entries.getS es' q = some x
  configs : ∀ p rc lo, (p, rc) ∈ v.configs → rc.lookupOptions = some lo → Made E T sc "lookup_options".toList (.map lo)

end Hiera.Spec
