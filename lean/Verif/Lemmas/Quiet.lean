/- Without an explainer there are no explanations. -/
import Verif.Lemmas.Fuel

set_option autoImplicit false

namespace Hiera

/-- Without an explainer there is none afterwards, and no explanation has been added. -/
def Quiet {α : Type} (m : M α) : Prop := ∀ s r t, s.on = none → m s = some (r, t) → t.on = none ∧ t.tree = s.tree

def QuietRel : Rel := fun _ m _ => Quiet m

theorem Quiet.off_withNode {α : Type} {m : M α} {n : Node} {s : St} (h : s.on = none) : withNode n m s = m s := by
  unfold withNode; rw [h]; rfl

theorem Quiet.off_report {f : Node → Node} {s : St} (h : s.on = none) : report f s = some (.ok (), s) := by
  unfold report; rw [h]; rfl

theorem Quiet.bind {α β : Type} {m : M α} {f : α → M β} (hm : Quiet m) (hf : ∀ a, Quiet (f a)) : Quiet (m >>= f) := by
  intro s r t ho h
  rw [bind_def] at h
  cases h1 : m s with
  | none => rw [h1] at h; cases h
  | some o =>
    obtain ⟨ho', ht'⟩ := hm s o.1 o.2 ho h1
    rcases o with ⟨_ | _, u⟩ <;> rw [h1] at h
    · obtain ⟨h2, h3⟩ := hf _ u r t ho' h
      exact ⟨h2, h3.trans ht'⟩
    · cases h; exact ⟨ho', ht'⟩

theorem Quiet.withCopy {α : Type} {m : M α} (f : Ic → Ic) (g : Option ExplOpts → Option ExplOpts) (hg : g none = none)
    (hm : Quiet m) : Quiet (withCopy f g m) := by
  intro s r t ho h
  unfold Hiera.withCopy at h
  cases h1 : m { s with v := { s.v with ic := f s.v.ic }, on := g s.on } with
  | none => rw [h1] at h; cases h
  | some o =>
    rw [h1] at h; cases h
    exact ⟨ho, (hm _ _ _ (by rw [ho]; exact hg) h1).2⟩

theorem QuietRel.base : Base QuietRel where
  pure := fun _ s r t ho h => by cases h; exact ⟨ho, rfl⟩
  bind := fun hm hf => Quiet.bind hm hf
  panic := fun _ s r t ho h => by cases h; exact ⟨ho, rfl⟩
  hang := fun s r t ho h => by cases h
  view := fun s r t ho h => by cases h; exact ⟨ho, rfl⟩
  update := fun _ s r t ho h => by cases h; exact ⟨ho, rfl⟩
  withCopy := fun f g hg hm => Quiet.withCopy f g hg hm
  withNode := fun n hm s r t ho h => by rw [Quiet.off_withNode ho] at h; exact hm s r t ho h
  report := fun f _ s r t ho h => by rw [Quiet.off_report ho] at h; cases h; exact ⟨ho, rfl⟩
  doRedacted := by
    intro α m m' hm s r t ho h
    unfold doRedacted at h
    by_cases h0 : s.v.ic.redacted = true
    · rw [if_pos h0] at h; exact hm _ _ _ ho h
    · rw [if_neg h0] at h
      cases h1 : m { s with v := { s.v with ic := { s.v.ic with redacted := true } } } with
      | none => rw [h1] at h; cases h
      | some o => rw [h1] at h; cases h; exact (hm { s with v := { s.v with ic := { s.v.ic with redacted := true } } } o.1 o.2 ho h1 :)

theorem QuietRel.forConfig {α : Type} {m m' : M α} (hm : QuietRel α m m') : QuietRel α (forConfig m) (forConfig m') := by
  intro s r t ho h
  unfold Hiera.forConfig at h
  rw [ho] at h
  exact hm s r t ho h

theorem QuietRel.closed (E : Env) : Closed E QuietRel QuietRel := QuietRel.base.closed E QuietRel.forConfig

/-- The evaluator is quiet. -/
theorem QuietRel.eval (E : Env) (n : Nat) : RecRel QuietRel QuietRel (eval E n) (eval E n) :=
  (QuietRel.closed E).eval (fun _ => QuietRel.base.hang) (fun _ => QuietRel.base.hang) n

end Hiera
