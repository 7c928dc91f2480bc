/-
  Specifications for package `hiera`.
-/
import Verif.Spec.Config
import Verif.Spec.Lookup

set_option autoImplicit false

namespace Hiera.Spec

/-- A hash, if there is one, has this value for the first of the names that it has a value for. -/
def FirstIn (names : List Str) (m : Option Entries) (v : Value) : Prop :=
  ∃ es pre n post, m = some es ∧ names = pre ++ n :: post ∧ (Value.str n, v) ∈ es ∧ ∀ x ∈ pre, ¬Has es x

/-- A hash, if there is one, has no value for any of the names. -/
def NoneIn (names : List Str) (m : Option Entries) : Prop := ∀ es, m = some es → ∀ n ∈ names, ¬Has es n

/-- The sources of a value, by rank. The first parameter asks the hierarchy for a name. A source is used only if all
those of higher rank have no value, and the state is that after asking the hierarchy for as many names as needed and, as the
last resort, running the default function. -/
inductive Ranked (ask : Str → M (Option Value)) (names : List Str) (override defaults : Option Entries)
    (dv : Option Value) (df : Option (M Value)) : St → Res (Option Value) → St → Prop
  | override {s v} : FirstIn names override v → Ranked ask names override defaults dv df s (.ok (some v)) s
  | data {s v t} : NoneIn names override → FirstAnswer ask names s (.ok (some v)) t →
      Ranked ask names override defaults dv df s (.ok (some v)) t
  | failed {s e t} : NoneIn names override → FirstAnswer ask names s (.panic e) t →
      Ranked ask names override defaults dv df s (.panic e) t
  | hash {s v t} : NoneIn names override → FirstAnswer ask names s (.ok none) t → FirstIn names defaults v →
      Ranked ask names override defaults dv df s (.ok (some v)) t
  | value {s v t} : NoneIn names override → FirstAnswer ask names s (.ok none) t → NoneIn names defaults → dv = some v →
      Ranked ask names override defaults dv df s (.ok (some v)) t
  | func {s t f r u} : NoneIn names override → FirstAnswer ask names s (.ok none) t → NoneIn names defaults → dv = none →
      df = some f → f t = some (r, u) →
      Ranked ask names override defaults dv df s (match r with | .ok v => .ok (some v) | .panic e => .panic e) u
  | nothing {s t} : NoneIn names override → FirstAnswer ask names s (.ok none) t → NoneIn names defaults → dv = none →
      df = none → Ranked ask names override defaults dv df s (.ok none) t

/-- A value of a type, made from another value: the same one if it already is an instance. -/
inductive OfType (inst : Nat → Value → Bool) (new : Nat → Value → Res Value) : Option Nat → Value → Res Value → Prop
  | any {v} : OfType inst new none v (.ok v)
  | is {t v} : inst t v = true → OfType inst new (some t) v (.ok v)
  | made {t v r} : inst t v = false → new t v = r → OfType inst new (some t) v r

/-- What is made of the value of a source. -/
inductive Delivered (inst : Nat → Value → Bool) (new : Nat → Value → Res Value) (t : Option Nat) :
    Res (Option Value) → Res (Option Value) → Prop
  | panic {e} : Delivered inst new t (.panic e) (.panic e)
  | nothing : Delivered inst new t (.ok none) (.ok none)
  | value {v w} : OfType inst new t v (.ok w) → Delivered inst new t (.ok (some v)) (.ok (some w))
  | failed {v e} : OfType inst new t v (.panic e) → Delivered inst new t (.ok (some v)) (.panic e)

/-- The type that a struct type has for a name. -/
def memberType (tm : Option (Str → Option Nat)) (n : Str) : Option Nat := tm.bind (· n)

/-- Asking for each of the names on its own, in order, gives these answers: each is that of the source of the highest rank,
made to be of the type that the struct type has for the name. -/
inductive EachOf (ask : Str → M (Option Value)) (inst : Nat → Value → Bool) (new : Nat → Value → Res Value)
    (tm : Option (Str → Option Nat)) (override defaults : Option Entries) :
    List Str → St → List (Str × Option Value) → St → Prop
  | nil {s} : EachOf ask inst new tm override defaults [] s [] s
  | missing {n ns s u got t} : Ranked ask [n] override defaults none none s (.ok none) u →
      EachOf ask inst new tm override defaults ns u got t →
      EachOf ask inst new tm override defaults (n :: ns) s ((n, none) :: got) t
  | found {n ns s v u w got t} : Ranked ask [n] override defaults none none s (.ok (some v)) u →
      (tm = none ∨ (memberType tm n).isSome) → OfType inst new (memberType tm n) v (.ok w) →
      EachOf ask inst new tm override defaults ns u got t →
      EachOf ask inst new tm override defaults (n :: ns) s ((n, some w) :: got) t

/-- The value that a name has in `LookupAll`, given what the hierarchy has for it. -/
def preferred (override defaults : Option Entries) (data : Option Value) (n : Str) (v : Value) : Prop :=
  FirstIn [n] override v ∨ (NoneIn [n] override ∧ data = some v) ∨ (NoneIn [n] override ∧ data = none ∧ FirstIn [n] defaults v)

end Hiera.Spec
