/- More fuel does not change a result. -/
import Verif.Lemmas.Rel

set_option autoImplicit false

namespace Hiera

/-- Whenever `m` terminates, `m'` does the same. -/
def Le : Rel := fun _ m m' => ∀ s r, m s = some r → m' s = some r

theorem bind_def {α β : Type} (m : M α) (f : α → M β) (s : St) :
    (m >>= f) s = match m s with
      | none => none
      | some (.ok a, s') => f a s'
      | some (.panic e, s') => some (.panic e, s') := rfl

theorem bind_ok {α β : Type} {m : M α} {f : α → M β} {s s' : St} {a : α} (h : m s = some (.ok a, s')) :
    (m >>= f) s = f a s' := by
  rw [bind_def, h]

theorem bind_panic {α β : Type} {m : M α} {f : α → M β} {s s' : St} {e : Err} (h : m s = some (.panic e, s')) :
    (m >>= f) s = some (.panic e, s') := by
  rw [bind_def, h]

theorem bind_none {α β : Type} {m : M α} {f : α → M β} {s : St} (h : m s = none) : (m >>= f) s = none := by
  rw [bind_def, h]

theorem pure_def {α : Type} (a : α) (s : St) : (pure a : M α) s = some (.ok a, s) := rfl

theorem Le.forConfig {α : Type} {m m' : M α} (hm : Le α m m') : Le α (forConfig m) (forConfig m') := by
  intro s r h
  unfold Hiera.forConfig at h ⊢
  by_cases ho : s.on.isNone = true
  · rw [if_pos ho] at h ⊢; exact hm _ _ h
  · rw [if_neg ho] at h ⊢
    unfold withCopy at h ⊢
    cases hms : m { s with v := { s.v with ic := id s.v.ic }, on := none } with
    | none => simp only [hms] at h; cases h
    | some x => simp only [hm _ _ hms]; simp only [hms] at h; exact h

theorem Le.base : Base Le where
  pure := fun _ _ _ h => h
  bind := by
    intro α β m m' f f' hm hf s r h
    rw [bind_def] at h
    cases hms : m s with
    | none => rw [hms] at h; cases h
    | some x =>
      obtain ⟨ra, s'⟩ := x
      rw [bind_def, hm s _ hms]
      rw [hms] at h
      cases ra with
      | ok a => exact hf a s' r h
      | panic e => exact h
  panic := fun _ _ _ h => h
  hang := fun _ _ h => h
  view := fun _ _ h => h
  update := fun _ _ _ h => h
  withCopy := by
    intro α m m' f g _ hm s r h
    unfold withCopy at h ⊢
    cases hms : m { s with v := { s.v with ic := f s.v.ic }, on := g s.on } with
    | none => rw [hms] at h; cases h
    | some x => rw [hm _ _ hms]; rw [hms] at h; exact h
  withNode := by
    intro α m m' n hm s r h
    unfold withNode at h ⊢
    by_cases ho : s.on.isNone = true
    · rw [if_pos ho] at h ⊢; exact hm _ _ h
    · rw [if_neg ho] at h ⊢
      cases hp : s.tree.push n with
      | none => simp only [hp] at h ⊢; exact h
      | some t =>
        simp only [hp] at h ⊢
        cases hms : m { s with tree := t } with
        | none => rw [hms] at h; cases h
        | some x => rw [hm _ _ hms]; rw [hms] at h; exact h
  report := fun _ _ _ _ h => h
  doRedacted := by
    intro α m m' hm s r h
    unfold doRedacted at h ⊢
    by_cases ho : s.v.ic.redacted = true
    · rw [if_pos ho] at h ⊢; exact hm _ _ h
    · rw [if_neg ho] at h ⊢
      cases hms : m { s with v := { s.v with ic := { s.v.ic with redacted := true } } } with
      | none => rw [hms] at h; cases h
      | some x => rw [hm _ _ hms]; rw [hms] at h; exact h

theorem eval_le_succ (E : Env) (n : Nat) : RecRel Le Le (eval E n) (eval E (n + 1)) := by
  induction n with
  | zero =>
    constructor
    · intro k o s r h; cases h
    · intro v s r h; cases h
    · intro v s r h; cases h
    · intro f o k _ s r h; cases h
  | succ n ih => exact (Le.base.closed E Le.forConfig).step ih

theorem eval_le (E : Env) {n m : Nat} (h : n ≤ m) : RecRel Le Le (eval E n) (eval E m) := by
  induction h with
  | refl => exact ⟨fun _ _ _ _ h => h, fun _ _ _ h => h, fun _ _ _ h => h, fun _ _ _ _ _ _ h => h⟩
  | step _ ih =>
    rename_i m _
    have := eval_le_succ E m
    exact ⟨fun k o s r h => this.lookup k o s r (ih.lookup k o s r h),
      fun v s r h => this.interp v s r (ih.interp v s r h),
      fun v s r h => this.interpC v s r (ih.interpC v s r h),
      fun f o k _ s r h => this.lk f o k s r (ih.lk f o k s r h)⟩

/-- Results do not depend on the fuel. -/
theorem lookup_det (E : Env) {n m : Nat} {k : Key} {o : Entries} {s : St} {r r' : Res (Option Value) × St}
    (h : (eval E n).lookup k o s = some r) (h' : (eval E m).lookup k o s = some r') : r = r' := by
  have h1 := (eval_le E (Nat.le_max_left n m)).lookup k o s r h
  have h2 := (eval_le E (Nat.le_max_right n m)).lookup k o s r' h'
  rw [h1] at h2
  exact Option.some.inj h2

/-- What another invocation has put there is what the file says. -/
theorem elsewhere_ok {E : Env} {v : View} {path : Str} {c : Cfg} (h : elsewhere E v path = some c) :
    newCfg E.cfg path (E.readYaml path) = .ok c := by
  unfold elsewhere at h
  split at h
  · split at h
    · rename_i hc; cases h; exact hc
    · cases h
  · cases h

theorem assoc_mem {κ α : Type} [DecidableEq κ] {k : κ} {a : α} : ∀ {l : List (κ × α)}, assoc k l = some a → (k, a) ∈ l
  | [], h => by cases h
  | (k', b) :: l, h => by
    unfold assoc at h
    split at h
    · rename_i hk; cases h; subst hk; exact List.mem_cons_self ..
    · exact List.mem_cons_of_mem _ (assoc_mem h)

end Hiera
