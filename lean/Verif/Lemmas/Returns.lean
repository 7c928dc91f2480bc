/-
  What computations return.
-/
import Verif.Spec.Eval
import Verif.Lemmas.Fuel

set_option autoImplicit false

namespace Hiera
open Spec

/-- What a computation returns, when it returns. -/
def Returns {α : Type} (m : M α) (P : α → Prop) : Prop := ∀ s a t, m s = some (.ok a, t) → P a

theorem NeverOk.panic {α : Type} (e : Err) : NeverOk (panic e : M α) := by
  intro s a t h; cases h

theorem NeverOk.left {α β : Type} {m : M α} (f : α → M β) (h : NeverOk m) : NeverOk (m >>= f) := by
  intro s b t hb
  rw [bind_def] at hb
  cases hm : m s with
  | none => rw [hm] at hb; cases hb
  | some o =>
    rcases o with ⟨_ | _, u⟩
    · exact h _ _ _ hm
    · rw [hm] at hb; cases hb

theorem NeverOk.right {α β : Type} (m : M α) {f : α → M β} (h : ∀ a, NeverOk (f a)) : NeverOk (m >>= f) := by
  intro s b t hb
  rw [bind_def] at hb
  cases hm : m s with
  | none => rw [hm] at hb; cases hb
  | some o =>
    rcases o with ⟨_ | _, u⟩ <;> rw [hm] at hb
    · exact h _ _ _ _ hb
    · cases hb

theorem NeverOk.withNode {α : Type} {m : M α} (n : Node) (h : NeverOk m) : NeverOk (withNode n m) := by
  intro s b t hb
  unfold Hiera.withNode at hb
  by_cases h0 : s.on.isNone = true
  · rw [if_pos h0] at hb; exact h _ _ _ hb
  · rw [if_neg h0] at hb
    cases hp : s.tree.push n with
    | none => rw [hp] at hb; cases hb
    | some tr =>
      simp only [hp] at hb
      cases hm : m { s with tree := tr } with
      | none => rw [hm] at hb; cases hb
      | some o =>
        rcases o with ⟨_ | _, u⟩
        · exact h _ _ _ hm
        · rw [hm] at hb; cases hb

theorem Returns.pure {α : Type} {P : α → Prop} {a : α} (h : P a) : Returns (pure a : M α) P := by
  intro s b t hb; cases hb; exact h
theorem Returns.panic {α : Type} {P : α → Prop} (e : Err) : Returns (Hiera.panic e : M α) P := by
  intro s b t hb; cases hb
theorem Returns.bind {α β : Type} {m : M α} {f : α → M β} {P : α → Prop} {Q : β → Prop} (h : Returns m P)
    (hf : ∀ a, P a → Returns (f a) Q) : Returns (m >>= f) Q := by
  intro s b t hb
  rw [bind_def] at hb
  cases hm : m s with
  | none => rw [hm] at hb; cases hb
  | some o =>
    rcases o with ⟨_ | _, u⟩ <;> rw [hm] at hb
    · exact hf _ (h _ _ _ hm) _ _ _ hb
    · cases hb
theorem Returns.trivial {α : Type} (m : M α) : Returns m (fun _ => True) := fun _ _ _ _ => True.intro
theorem NeverOk.after {α β : Type} {m : M α} {f : α → M β} {P : α → Prop} (h : Returns m P)
    (hf : ∀ a, P a → NeverOk (f a)) : NeverOk (m >>= f) := by
  intro s b t hb
  exact Returns.bind (Q := fun _ => False) h (fun a ha s b t hb => hf a ha s b t hb) _ _ _ hb

/-- Two computations that continue in the same way for all that the first part may return. -/
theorem bind_congr_of {α β : Type} {m : M α} {f g : α → M β} {P : α → Prop} (h : Returns m P)
    (hf : ∀ a, P a → f a = g a) : (m >>= f) = (m >>= g) := by
  funext s
  rw [bind_def, bind_def]
  cases hm : m s with
  | none => rfl
  | some o =>
    rcases o with ⟨a | _, u⟩
    · simp only; rw [hf a (h _ _ _ hm)]
    · rfl

end Hiera
