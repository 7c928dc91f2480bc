/-
  Specifications for the search through a hierarchy.
-/
import Verif.Spec.Eval
import Verif.Spec.Merge

set_option autoImplicit false

namespace Hiera.Spec

/-- The places that a provider is asked at: once without a location if its entry has none, else once for each location
that exists. -/
def places (p : Prov) : List (Prov × Option Loc) :=
  match p.entry.locations with
  | none => [(p, none)]
  | some ls => (ls.filter Loc.exists_).map (fun l => (p, some l))

/-- Asking for a value at each of some places, in order, ends with this outcome and this state: that of the first place
which does not merely say that it has no value. Later places are not asked. -/
inductive FirstAnswer {α : Type} (ask : α → M (Option Value)) : List α → St → Res (Option Value) → St → Prop
  | none {s} : FirstAnswer ask [] s (.ok none) s
  | hit {a as s v t} : ask a s = some (.ok (some v), t) → FirstAnswer ask (a :: as) s (.ok (some v)) t
  | fail {a as s e t} : ask a s = some (.panic e, t) → FirstAnswer ask (a :: as) s (.panic e) t
  | miss {a as s u r t} : ask a s = some (.ok none, u) → FirstAnswer ask as u r t → FirstAnswer ask (a :: as) s r t

/-- Asking for a value at each of some places, in order, whatever the answers, ends with these answers and this state, or
with the first failure. -/
inductive Asked {α : Type} (ask : α → M (Option Value)) : List α → St → Res (List (Option Value)) → St → Prop
  | nil {s} : Asked ask [] s (.ok []) s
  | cons {a as s o u os t} : ask a s = some (.ok o, u) → Asked ask as u (.ok os) t → Asked ask (a :: as) s (.ok (o :: os)) t
  | fail {a as s e t} : ask a s = some (.panic e, t) → Asked ask (a :: as) s (.panic e) t
  | later {a as s o u e t} : ask a s = some (.ok o, u) → Asked ask as u (.panic e) t → Asked ask (a :: as) s (.panic e) t

/-- Something is found iff it is among the answers, and failures are those of the answers. -/
def Agree : Res (Option Value) → Res (List (Option Value)) → Prop
  | .ok o, .ok os => o.isSome = true ↔ ∃ x, some x ∈ os
  | .panic e, .panic e' => e = e'
  | _, _ => False

/-- Asked in any state with `I`, the computation ends with outcome `r`, in a state with `I`. -/
def Does {α : Type} (I : St → Prop) (m : M α) (r : Res α) : Prop := ∀ s, I s → ∃ t, m s = some (r, t) ∧ I t

/-! ### The merge strategy of a lookup -/

/-- The merge option that counts: the caller's, else that of the lookup options of the key. -/
inductive MergeOption (cli : Option Value) (lo : Option Entries) : Option Value → Prop
  | caller {o} : cli = some o → MergeOption cli lo (some o)
  | options {m o} : cli = none → lo = some m → (Value.str "merge".toList, o) ∈ m → MergeOption cli lo (some o)
  | none : cli = none → (∀ m, lo = some m → ¬Has m "merge".toList) → MergeOption cli lo none

/-- The strategies by name. -/
inductive StrategyNamed (opts : Entries) : Str → Res Strategy → Prop
  | first : StrategyNamed opts "first".toList (.ok .first)
  | unique : StrategyNamed opts "unique".toList (.ok .unique)
  | hash : StrategyNamed opts "hash".toList (.ok .hash)
  | deep : StrategyNamed opts "deep".toList (.ok (.deep opts))
  | unknown {n} : n ∉ ["first".toList, "unique".toList, "hash".toList, "deep".toList] →
      StrategyNamed opts n (.panic (.unknownStrategy n))

/-- The strategy that a merge option stands for. Unlike an unknown name, a value that is neither a string nor a hash is not
an error, and a hash without a `strategy` that is a string counts as having the strategy with the empty name. -/
inductive StrategyOf : Option Value → Res Strategy → Prop
  | none : StrategyOf none (.ok .first)
  | name {n r} : StrategyNamed [] n r → StrategyOf (some (.str n)) r
  | hash {m n opts r} : (Value.str "strategy".toList, .str n) ∈ m →
      (∀ k v, (k, v) ∈ opts ↔ (k, v) ∈ m ∧ k ≠ .str "strategy".toList) → opts.Sublist m → StrategyNamed opts n r →
      StrategyOf (some (.map m)) r
  | nameless {m} : (∀ n, (Value.str "strategy".toList, .str n) ∉ m) →
      StrategyOf (some (.map m)) (.panic (.unknownStrategy []))
  | other {v} : (∀ n, v ≠ .str n) → (∀ m, v ≠ .map m) → StrategyOf (some v) (.ok .first)

/-- The state with other fields of the invocation. -/
def setIc (u : St) (ic : Ic) : St := { u with v := { u.v with ic := ic } }

/-- The state in which the hierarchy is asked for a value on behalf of a lookup. -/
def asking (u : St) (lo : Option Entries) (s : Strategy) (redacted : Bool) : St :=
  setIc u { u.v.ic with mode := .data, luOpts := lo, strategy := some s, redacted := u.v.ic.redacted || redacted }

/-! ### Conversion -/

/-- The type and arguments that lookup options say a value is to be converted to. -/
inductive ConvertTo (E : Env) : Option Entries → Option (Nat × Option (List Value)) → Prop
  | noOptions : ConvertTo E none none
  | absent {m} : ¬Has m "convert_to".toList → ConvertTo E (some m) none
  | empty {m} : (Value.str "convert_to".toList, .arr []) ∈ m → ConvertTo E (some m) none
  | type {m n t} : (Value.str "convert_to".toList, .str n) ∈ m → E.parseType n = .ok t → ConvertTo E (some m) (some (t, none))
  | typeIn {m n t} : (Value.str "convert_to".toList, .arr [.str n]) ∈ m → E.parseType n = .ok t →
      ConvertTo E (some m) (some (t, none))
  | args {m n t a as} : (Value.str "convert_to".toList, .arr (.str n :: a :: as)) ∈ m → E.parseType n = .ok t →
      ConvertTo E (some m) (some (t, some (a :: as)))

/-- What a found value becomes. -/
inductive Converted (E : Env) : Option (Nat × Option (List Value)) → Option Value → Res (Option Value) → Prop
  | nothing {c} : Converted E c none (.ok none)
  | asIs {v} : Converted E none (some v) (.ok (some v))
  | made {t as v w} : E.newValue t v as = .ok w → Converted E (some (t, as)) (some v) (.ok (some w))
  | failed {t as v e} : E.newValue t v as = .panic e → Converted E (some (t, as)) (some v) (.panic e)

/-- Does the conversion make the value sensitive? -/
def sensitiveTo (E : Env) : Option (Nat × Option (List Value)) → Bool
  | some (t, _) => E.isSensitive t
  | none => false

/-! ### Lookup options -/

/-- The lookup options of a key in a configuration: those of its name, if they are a hash and if the configuration is that
of a module only if the name starts with that of the module. -/
def OptionsFor (rc : RCfg) (root : Str) (m : Entries) : Prop :=
  ∃ lo, rc.lookupOptions = some lo ∧ (Value.str root, .map m) ∈ lo ∧
    (rc.moduleName = [] ∨ ∃ rest, root = rc.moduleName ++ "::".toList ++ rest)

end Hiera.Spec
