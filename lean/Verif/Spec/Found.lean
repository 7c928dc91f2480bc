/- What the levels of a hierarchy have for a key, one value after the other. -/
import Verif.Spec.Kept

set_option autoImplicit false

namespace Hiera.Spec

/-- The functions that need not be loaded. -/
def AlwaysThere : FnKind → Str → Prop
  | .dataHash, n => n = "yaml_data".toList ∨ n = "json_data".toList
  | .lookupKey, n => n = "environment".toList ∨ n = "scope".toList
  | .dataDig, _ => False

/-- There is no function with the name that an entry has for it. -/
def NoFunction (E : Env) (e : Entry) : Prop := ∃ kind n, e.function = some (kind, n) ∧ ¬AlwaysThere kind n ∧ loadFunction E e n = .ok none

/-- A resolved entry has the given data at its only place; none if nothing is read at its places or if there is no such function. -/
inductive Carries (E : Env) : Entry → Entries → Prop
  | nowhere {e : Entry} {n : Str} {d : Entries} : e.function = some (.dataHash, n) → e.locations = none → refHash E e n (refOpts e none) = .ok d → Carries E e d
  | place {e : Entry} {n : Str} {l : Loc} {d : Entries} : e.function = some (.dataHash, n) → e.locations = some [l] → IsRead l →
      refHash E e n (refOpts e (some l)) = .ok d → Carries E e d
  | missing {e : Entry} {ls : List Loc} : e.locations = some ls → (∀ l ∈ ls, ¬IsRead l) → Carries E e []
  | nobody {e : Entry} : NoFunction E e → Carries E e []

/-- A resolved entry can be read at all of its places, and has nothing for a key at any of them. -/
def LacksAt (E : Env) (q : Str) (e : Entry) : Prop :=
  ∃ n ls, e.function = some (.dataHash, n) ∧ e.locations = some ls ∧ ∀ l ∈ ls, IsRead l → ∃ d, refHash E e n (refOpts e (some l)) = .ok d ∧ Entries.getS d q = none

/-- Something that a hierarchy has for a key: a value, or what an entry of another kind will say. -/
inductive Bit where
  | value (v : Value)
  | level (e : Entry)

/-- What a resolved hierarchy has for a key, in order. Entries that have nothing for it do not show. -/
inductive Bits (E : Env) (q : Str) : List Entry → List Bit → Prop
  | nil : Bits E q [] []
  | found {e : Entry} {d : Entries} {v : Value} {es : List Entry} {bs : List Bit} : Carries E e d → Entries.getS d q = some v → Bits E q es bs →
      Bits E q (e :: es) (.value v :: bs)
  | nothing {e : Entry} {d : Entries} {es : List Entry} {bs : List Bit} : Carries E e d → Entries.getS d q = none → Bits E q es bs → Bits E q (e :: es) bs
  | silent {e : Entry} {es : List Entry} {bs : List Bit} : LacksAt E q e → Bits E q es bs → Bits E q (e :: es) bs
  | other {e : Entry} {es : List Entry} {bs : List Bit} : Bits E q es bs → Bits E q (e :: es) (.level e :: bs)

inductive SameBit (E E' : Env) : Bit → Bit → Prop
  | value {v w : Value} : Respelled v w → SameBit E E' (.value v) (.value w)
  | level {e e' : Entry} : SameSources E E' e e' → SameBit E E' (.level e) (.level e')

/-- Two resolved hierarchies have the same for all keys, on whatever levels, and both or neither have one level only. -/
structure SameFound (E E' : Env) (es es' : List Entry) : Prop where
  one : es.length = 1 ↔ es'.length = 1
  found : ∀ q, ∃ bs bs', Bits E q es bs ∧ Bits E' q es' bs' ∧ List.Forall₂ (SameBit E E') bs bs'

/-- In the given configuration and scope, a level is resolved without an error and then has the given data. -/
def LevelHas (E : Env) (sc : Scope) (c : Cfg) (e : Entry) (d : Entries) : Prop :=
  ∃ n b x, refResolve E (ref E none n) ⟨sc, .call⟩ none c.defaults = some (.ok b) ∧
    refResolve E (ref E none n) ⟨sc, .call⟩ (some b) e = some (.ok x) ∧ Carries E x d

/-- The values that several levels have for a key. -/
def valuesFor (ds : List Entries) (q : Str) : List Value := ds.filterMap (fun d => Entries.getS d q)

end Hiera.Spec
