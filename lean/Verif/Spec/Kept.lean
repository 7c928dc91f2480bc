/- Hierarchies whose sources have the same data, wherever and however it is kept. -/
import Mathlib.Data.List.Forall2
import Verif.Spec.Reference
import Verif.Spec.Spelled

set_option autoImplicit false

namespace Hiera.Spec

/-- What is read is the same: it has the same values for all keys, in whatever order, and however expressions are written in them; or it
is the same error. -/
inductive SameData : Res Entries → Res Entries → Prop
  | failed {e : Err} : SameData (.panic e) (.panic e)
  | read {h h' : Entries} : (∀ q, Option.Rel Respelled (Entries.getS h q) (Entries.getS h' q)) → SameData (.ok h) (.ok h')

/-- A resolved location that is read. -/
def IsRead : Loc → Prop
  | .path _ _ there => there = true
  | .uri _ _ => True
  | _ => False

/-- Two resolved entries, whose functions give all data, have the same at two places: both are read and give the same, or neither is
read. -/
inductive SameAt (E E' : Env) (e e' : Entry) (n n' : Str) : Loc → Loc → Prop
  | read {l l' : Loc} : IsRead l → IsRead l' → SameData (refHash E e n (refOpts e (some l))) (refHash E' e' n' (refOpts e' (some l'))) → SameAt E E' e e' n n' l l'
  | neither {l l' : Loc} : ¬IsRead l → ¬IsRead l' → SameAt E E' e e' n n' l l'

/-- Two resolved entries have the same at their places, one by one, apart from places where nothing is read. -/
inductive SamePlaces (E E' : Env) (e e' : Entry) (n n' : Str) : List Loc → List Loc → Prop
  | nil : SamePlaces E E' e e' n n' [] []
  | both {l l' : Loc} {ls ls' : List Loc} : SameAt E E' e e' n n' l l' → SamePlaces E E' e e' n n' ls ls' → SamePlaces E E' e e' n n' (l :: ls) (l' :: ls')
  | fewer {l : Loc} {ls ls' : List Loc} : ¬IsRead l → SamePlaces E E' e e' n n' ls ls' → SamePlaces E E' e e' n n' (l :: ls) ls'
  | more {l' : Loc} {ls ls' : List Loc} : ¬IsRead l' → SamePlaces E E' e e' n n' ls ls' → SamePlaces E E' e e' n n' ls (l' :: ls')

/-- Two resolved entries have the same. Those whose functions give all data may be called otherwise, have other functions, options and
locations, and more or fewer where nothing is read, as long as both or neither have one only; the others may be called otherwise. -/
inductive SameSources (E E' : Env) : Entry → Entry → Prop
  | nowhere {e e' : Entry} {n n' : Str} : e.function = some (.dataHash, n) → e'.function = some (.dataHash, n') → e.locations = none →
      e'.locations = none → SameData (refHash E e n (refOpts e none)) (refHash E' e' n' (refOpts e' none)) → SameSources E E' e e'
  | places {e e' : Entry} {n n' : Str} {ls ls' : List Loc} : e.function = some (.dataHash, n) → e'.function = some (.dataHash, n') →
      e.locations = some ls → e'.locations = some ls' → (ls.length = 1 ↔ ls'.length = 1) → SamePlaces E E' e e' n n' ls ls' → SameSources E E' e e'
  | other {e : Entry} {name : Str} : (∀ n, e.function ≠ some (.dataHash, n)) → SameSources E E' e { e with name := name }

/-- Two configurations are resolved to hierarchies that have the same, level by level, in the same order; or resolving fails in the same
way. -/
def SameHoldings (E E' : Env) (sc : Scope) (c c' : Cfg) : Prop :=
  ∀ n, (∃ e : Option Err, refLevels E (ref E none n) ⟨sc, .call⟩ c c.hierarchy = e.map .panic ∧
      refLevels E' (ref E' none n) ⟨sc, .call⟩ c' c'.hierarchy = e.map .panic) ∨
    ∃ es es', refLevels E (ref E none n) ⟨sc, .call⟩ c c.hierarchy = some (.ok es) ∧
      refLevels E' (ref E' none n) ⟨sc, .call⟩ c' c'.hierarchy = some (.ok es') ∧ List.Forall₂ (SameSources E E') es es'

end Hiera.Spec
