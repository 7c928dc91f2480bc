/-
  Specifications for merging: duplicate-free unions, leaves, deep merges, and a monad that records which sources a merge
  consults.
-/
import Verif.Model.Merge

set_option autoImplicit false

namespace Hiera.Spec
open Value

/-- `rs` holds the first occurrence of each element of `xs` in order: it is a subsequence without duplicates, and each
prefix of `xs` is covered by a prefix of `rs` taken from it. -/
def IsNub (xs rs : List Value) : Prop :=
  rs.Sublist xs ∧ rs.Pairwise (fun a b => equals a b = false) ∧
  ∀ pre, pre <+: xs → ∃ rp, rp <+: rs ∧ rp.Sublist pre ∧ ∀ x ∈ pre, ∃ r ∈ rp, equals r x = true

mutual
/-- `ls` are the non-array leaves of a value, in order. -/
inductive Leaves : Value → List Value → Prop
  | leaf {v} : (∀ es, v ≠ .arr es) → Leaves v [v]
  | arr {es ls} : LeavesL es ls → Leaves (.arr es) ls
/-- The leaves of a list of values. -/
inductive LeavesL : List Value → List Value → Prop
  | nil : LeavesL [] []
  | cons {v vs ls ls'} : Leaves v ls → LeavesL vs ls' → LeavesL (v :: vs) (ls ++ ls')
end

/-- The values are both maps or both arrays. -/
def SameContainer : Value → Value → Prop
  | .map _, .map _ => True
  | .arr _, .arr _ => True
  | _, _ => False

/-- `r` is the deep merge of `a` over `b`. -/
inductive DeepMerged : Value → Value → Value → Prop
  | maps {as bs rs : Entries} :
      (∀ k, WF k → (Entries.get rs k = none ↔ Entries.get as k = none ∧ Entries.get bs k = none)) →
      (∀ k x, WF k → Entries.get as k = some x → Entries.get bs k = none → Entries.get rs k = some x) →
      (∀ k y, WF k → Entries.get as k = none → Entries.get bs k = some y → Entries.get rs k = some y) →
      (∀ k x y z, WF k → Entries.get as k = some x → Entries.get bs k = some y → Entries.get rs k = some z →
        DeepMerged x y z) →
      DeepMerged (.map as) (.map bs) (.map rs)
  | arrays {as bs rs : List Value} : as ≠ [] → bs ≠ [] → IsNub (as ++ bs) rs → DeepMerged (.arr as) (.arr bs) (.arr rs)
  | emptyLeft {bs : List Value} : DeepMerged (.arr []) (.arr bs) (.arr bs)
  | emptyRight {as : List Value} : DeepMerged (.arr as) (.arr []) (.arr as)
  | other {a b : Value} : ¬SameContainer a b → DeepMerged a b a

/-- The value at a path of map keys. -/
def valueAt : List Value → Value → Option Value
  | [], v => some v
  | k :: ks, .map es => (Entries.get es k).bind (valueAt ks)
  | _ :: _, _ => none

mutual
/-- No array in the value has two equal elements. -/
def NoDups : Value → Prop
  | .arr es => es.Pairwise (fun a b => equals a b = false)
  | .map es => NoDupsE es
  | _ => True
/-- `NoDups` for the values of entries. -/
def NoDupsE : Entries → Prop
  | [] => True
  | (_, v) :: es => NoDups v ∧ NoDupsE es
end

/-- Computations that record consulted sources and may panic. -/
def Traced (ι : Type) (α : Type) : Type := List ι → Res α × List ι

instance (ι : Type) : Monad (Traced ι) where
  pure a := fun tr => (.ok a, tr)
  bind x f := fun tr => match x tr with
    | (.ok a, tr') => f a tr'
    | (.panic e, tr') => (.panic e, tr')

/-- Consulting source `i`, whose outcome is `g i`. -/
def consult {ι : Type} (g : ι → Res (Option Value)) (i : ι) : Traced ι (Option Value) := fun tr => (g i, tr ++ [i])

/-- A merge over the sources `vs` with outcomes `g`: the result and the consulted sources. -/
def runMerge {ι : Type} (s : Strategy) (vs : List ι) (g : ι → Res (Option Value)) : Res (Option Value) × List ι :=
  mergeLookup (m := Traced ι) (fun _ x => x) (fun _ => pure ()) s vs (consult g) []

/-- The values that the sources have. -/
def found {ι : Type} (g : ι → Res (Option Value)) (vs : List ι) : List Value :=
  vs.filterMap (fun v => match g v with | .ok (some x) => some x | _ => none)

end Hiera.Spec
