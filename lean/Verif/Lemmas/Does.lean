/-
  The merge of the outcomes of computations, in terms of the merge of given outcomes.
-/
import Verif.Spec.Lookup
import Verif.Lemmas.Quiet

set_option autoImplicit false

namespace Hiera
open Spec

/-- A computation has the outcomes of a recorded one. -/
def DoesT {ι α : Type} (I : St → Prop) (m : M α) (x : Traced ι α) : Prop :=
  ∀ s tr, I s → ∃ t, m s = some ((x tr).1, t) ∧ I t

section
variable {ι : Type} {I : St → Prop}

theorem DoesT.pure {α : Type} (a : α) : DoesT (ι := ι) I (pure a) (pure a) := fun s _ hs => ⟨s, rfl, hs⟩

theorem DoesT.bind {α β : Type} {m : M α} {x : Traced ι α} {f : α → M β} {y : α → Traced ι β} (h : DoesT I m x)
    (hf : ∀ a, DoesT I (f a) (y a)) : DoesT I (m >>= f) (x >>= y) := by
  intro s tr hs
  obtain ⟨t, ht, hI⟩ := h s tr hs
  have e : (x >>= y) tr = (match x tr with | (.ok a, tr') => y a tr' | (.panic e, tr') => (.panic e, tr')) := rfl
  rw [e, bind_def, ht]
  rcases x tr with ⟨a | e, tr'⟩
  · exact hf a t tr' hI
  · exact ⟨t, rfl, hI⟩

variable {f : ι → M (Option Value)} {g : ι → Res (Option Value)}

/-- Merging computations that have given outcomes has the outcome of merging those. -/
theorem mergeM_does (hI : ∀ s, I s → s.on = none) (st : Strategy) {vs : List ι} (h : ∀ v ∈ vs, Does I (f v) (g v)) :
    Does I (mergeM st vs f) (runMerge st vs g).1 := by
  have cons : ∀ v ∈ vs, DoesT I (f v) (consult g v) := fun v hv s tr hs => h v hv s hs
  have rep : ∀ n : Node → Node, DoesT (ι := ι) I (report n) (Pure.pure ()) := fun n s _ hs => ⟨s, Quiet.off_report (hI s hs), hs⟩
  have node : ∀ (n : Node) (m : M (Option Value)) (x : Traced ι (Option Value)), DoesT I m x → DoesT I (withNode n m) x := by
    intro n m x hm s tr hs
    rw [Quiet.off_withNode (hI s hs)]
    exact hm s tr hs
  have fin : ∀ r : Option Value, DoesT (ι := ι) I
      (match r with | some v => (do report (.result v); Pure.pure (some v)) | none => Pure.pure none)
      (match r with | some v => (do Pure.pure (); Pure.pure (some v)) | none => Pure.pure none) := by
    intro r
    cases r
    · exact .pure _
    · exact .bind (rep _) (fun _ => .pure _)
  have first : ∀ ws : List ι, (∀ w ∈ ws, w ∈ vs) → DoesT I (firstLoop f ws) (firstLoop (consult g) ws) := by
    intro ws
    induction ws with
    | nil => exact fun _ => .pure _
    | cons w ws ih =>
      intro hw
      refine .bind (cons w (hw w (by simp))) (fun r => ?_)
      cases r
      · exact ih (fun w hw' => hw w (by simp [hw']))
      · exact .pure _
  have loop : ∀ (ws : List ι) (memo : Option Value), (∀ w ∈ ws, w ∈ vs) →
      DoesT I (mergeLoop st f memo ws) (mergeLoop st (consult g) memo ws) := by
    intro ws
    induction ws with
    | nil => exact fun _ _ => .pure _
    | cons w ws ih =>
      intro memo hw
      refine .bind (cons w (hw w (by simp))) (fun r => ?_)
      have hw' : ∀ w ∈ ws, w ∈ vs := fun w hw' => hw w (by simp [hw'])
      cases r
      · exact ih _ hw'
      · cases memo <;> exact ih _ hw'
  suffices hs : DoesT I (mergeM st vs f) (mergeLookup (m := Traced ι) (fun _ x => x) (fun _ => Pure.pure ()) st vs (consult g)) by
    exact fun s h => hs s [] h
  have one : ∀ v ∈ vs, DoesT I (do match ← f v with | some x => Pure.pure (some (st.single x)) | none => Pure.pure none)
      (do match ← consult g v with | some x => Pure.pure (some (st.single x)) | none => Pure.pure none) := by
    intro v hv
    refine .bind (cons v hv) (fun r => ?_)
    cases r <;> exact .pure _
  unfold Hiera.mergeM
  match vs with
  | [] => cases st <;> exact .pure _
  | [v] =>
    cases st
    · exact cons v (by simp)
    · exact one v (by simp)
    · exact one v (by simp)
    · exact one v (by simp)
  | v :: w :: vs =>
    cases st
    · exact .bind (first _ (fun _ h => h)) fin
    · exact node _ _ _ (.bind (loop _ _ (fun _ h => h)) fin)
    · exact node _ _ _ (.bind (loop _ _ (fun _ h => h)) fin)
    · exact node _ _ _ (.bind (loop _ _ (fun _ h => h)) fin)
end
end Hiera
