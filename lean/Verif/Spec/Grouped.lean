/- Hierarchies in which the same sources are grouped in another way. -/
import Verif.Spec.Merge
import Verif.Spec.Reference
import Verif.Spec.Ordinary

set_option autoImplicit false

namespace Hiera.Spec
open Value

/-- A value that is a map. -/
def IsMap (v : Value) : Prop := ∃ es, v = .map es

/-- Where three values all have something at a path and the first and the last could be merged there, the one between them
could be too. -/
def Between (a b c : Value) : Prop :=
  ∀ path x y z, (∀ k ∈ path, WF k) → valueAt path a = some x → valueAt path b = some y → valueAt path c = some z →
    SameContainer x z → SameContainer x y

/-- No value keeps apart two others that would be merged without it, whether it is of higher priority than one of them or not. -/
def NoneBetween (st : Strategy) (vs : List Value) : Prop :=
  match st with
  | .hash => ∀ a b c, [a, b, c].Sublist vs → IsMap a → IsMap c → IsMap b
  | .deep _ => ∀ a b c, [a, b, c].Sublist vs → Between a b c
  | _ => True

/-- An entry with another name and other locations. -/
abbrev renamed (e : Entry) (name : Str) (ls : List Loc) : Entry := { e with name := name, locations := some ls }

/-- The sources of an entry: one for each of its locations, or itself. -/
def sourcesOf (E : Env) (r : Ref) (C : Ctx) (k : Key) (e : Entry) : List (Ans (Option Value)) :=
  match e.locations with
  | none => [refSource E r C k e none]
  | some ls => ls.map (refAt E r C k e)

/-- What the sources of a hierarchy have for a key does not clash. -/
def NoClash (E : Env) (r : Ref) (C : Ctx) (k : Key) (st : Strategy) (es : List Entry) : Prop :=
  ∀ vs, refFound (es.flatMap (sourcesOf E r C k)) = some (.ok vs) → (∀ v ∈ vs, WF v) ∧ NoneBetween st vs

/-- In a configuration and a scope, what the sources of the hierarchy have for a key never clashes: not when the lookup options
are read, and not in lookups. -/
def NeverClashes (E : Env) (sc : Scope) (c : Cfg) : Prop :=
  ∀ n es, refLevels E (ref E none n) ⟨sc, .call⟩ c c.hierarchy = some (.ok es) → ∀ w k st,
    NoClash E (ref E none n) ⟨sc, w⟩ k st es ∧ ∀ o m, NoClash E (ref E (some ⟨es, o⟩) m) ⟨sc, w⟩ k st es

/-! ### Data that does not clash -/

/-- Two values of the same shape: where both have something at a path, both are maps, or both are arrays, or neither is any of
the two. -/
def SameShape (v w : Value) : Prop :=
  ∀ path x y, (∀ k ∈ path, WF k) → valueAt path v = some x → valueAt path w = some y → ∀ z, SameContainer x z → SameContainer y z

/-- A value that the entries of a resolved hierarchy have for a key in their data. -/
def InData (E : Env) (es : List Entry) (q : Str) (v : Value) : Prop :=
  ∃ e ∈ es, ∃ n l h, e.function = some (.dataHash, n) ∧ (match l with | none => e.locations = none | some l => ∃ ls, e.locations = some ls ∧ l ∈ ls) ∧
    refHash E e n (refOpts e l) = .ok h ∧ Entries.getS h q = some v

/-- A resolved hierarchy of data without expressions in which all values for a key are of the same shape. -/
structure WellShaped (E : Env) (es : List Entry) : Prop where
  hash : ∀ e ∈ es, ∃ n, e.function = some (.dataHash, n)
  plain : ∀ q v, InData E es q v → WF v ∧ Unmarked v
  same : ∀ q v w, InData E es q v → InData E es q w → SameShape v w

end Hiera.Spec
