/- Computations that end: rules for families of computations, one for each amount of fuel. -/
import Verif.Lemmas.Fuel
import Verif.Lemmas.InterpEval

set_option autoImplicit false

namespace Hiera

/-- From states satisfying `P`, with enough fuel `m` ends, always in the same way; if it ends normally, then with `Q`. -/
def Halts {α : Type} (P : View → Prop) (m : Nat → M α) (Q : α → View → Prop) : Prop :=
  ∀ s : St, P s.v → ∃ N r t, (∀ n, N ≤ n → m n s = some (r, t)) ∧ ∀ a, r = .ok a → Q a t.v

namespace Halts
variable {α β : Type} {P P' : View → Prop}

theorem pure {a : α} {Q : α → View → Prop} (h : ∀ v, P v → Q a v) : Halts P (fun _ => Pure.pure a) Q := by
  intro s hs
  exact ⟨0, .ok a, s, fun _ _ => rfl, fun b hb => by cases hb; exact h _ hs⟩

theorem bind {m : Nat → M α} {f : Nat → α → M β} {Q : α → View → Prop} {R : β → View → Prop} (hm : Halts P m Q)
    (hf : ∀ a, Halts (Q a) (fun n => f n a) R) : Halts P (fun n => m n >>= f n) R := by
  intro s hs
  obtain ⟨N, r, t, h1, h2⟩ := hm s hs
  cases r with
  | ok a =>
    obtain ⟨N', r', t', h3, h4⟩ := hf a t (h2 a rfl)
    refine ⟨max N N', r', t', fun n hn => ?_, h4⟩
    exact (bind_ok (h1 n (by omega))).trans (h3 n (by omega))
  | panic e =>
    exact ⟨N, .panic e, t, fun n hn => bind_panic (h1 n hn), fun a ha => by cases ha⟩

theorem weaken {m : Nat → M α} {Q Q' : α → View → Prop} (hm : Halts P m Q) (hp : ∀ v, P' v → P v)
    (hq : ∀ a v, Q a v → Q' a v) : Halts P' m Q' := by
  intro s hs
  obtain ⟨N, r, t, h1, h2⟩ := hm s (hp _ hs)
  exact ⟨N, r, t, h1, fun a ha => hq _ _ (h2 a ha)⟩

theorem post {m : Nat → M α} {Q Q' : α → View → Prop} (hm : Halts P m Q) (hq : ∀ a v, Q a v → Q' a v) : Halts P m Q' :=
  hm.weaken (fun _ h => h) hq

/-- More fuel by one. -/
theorem succ {m m' : Nat → M α} {Q : α → View → Prop} (hm : Halts P m Q) (h : ∀ n, m' (n + 1) = m n) : Halts P m' Q := by
  intro s hs
  obtain ⟨N, r, t, h1, h2⟩ := hm s hs
  refine ⟨N + 1, r, t, fun n hn => ?_, h2⟩
  obtain ⟨k, rfl⟩ : ∃ k, n = k + 1 := ⟨n - 1, by omega⟩
  rw [h k]
  exact h1 k (by omega)

theorem of_eq {m m' : Nat → M α} {Q : α → View → Prop} (hm : Halts P m Q) (h : ∀ n, m' n = m n) : Halts P m' Q := by
  have : m' = m := funext h
  rw [this]; exact hm

/-- A fact that does not depend on the state may be used. -/
theorem assume {m : Nat → M α} {Q : α → View → Prop} {p : Prop} (hp : ∀ v, P v → p) (h : p → Halts P m Q) : Halts P m Q :=
  fun s hs => h (hp _ hs) s hs

theorem panic {e : Err} {Q : α → View → Prop} : Halts P (fun _ => Hiera.panic e) Q := by
  intro s _
  exact ⟨0, .panic e, s, fun _ _ => rfl, fun a ha => by cases ha⟩

theorem lift {r : Res α} {Q : α → View → Prop} (h : ∀ v a, P v → r = .ok a → Q a v) :
    Halts P (fun _ => Hiera.lift r) Q := by
  intro s hs
  exact ⟨0, r, s, fun _ _ => rfl, fun a ha => h _ a hs ha⟩

theorem view : Halts P (fun _ => Hiera.view) (fun a v => P a ∧ v = a) := by
  intro s hs
  exact ⟨0, .ok s.v, s, fun _ _ => rfl, fun a ha => by cases ha; exact ⟨hs, rfl⟩⟩

theorem update {f : View → View} {Q : Unit → View → Prop} (h : ∀ v, P v → Q () (f v)) :
    Halts P (fun _ => Hiera.update f) Q := by
  intro s hs
  exact ⟨0, .ok (), _, fun _ _ => rfl, fun a ha => by cases ha; exact h _ hs⟩

theorem report {f : Node → Node} : Halts P (fun _ => Hiera.report f) (fun _ v => P v) := by
  intro s hs
  have hr : Hiera.report f s = if s.on.isNone then some (.ok (), s) else match s.tree.accept f with
    | none => some (.panic .nilDeref, s)
    | some t => some (.ok (), { s with tree := t }) := rfl
  by_cases ho : s.on.isNone = true
  · rw [if_pos ho] at hr
    exact ⟨0, .ok (), s, fun _ _ => hr, fun _ _ => hs⟩
  · rw [if_neg ho] at hr
    cases ht : s.tree.accept f with
    | none => rw [ht] at hr; exact ⟨0, .panic .nilDeref, s, fun _ _ => hr, fun a ha => by cases ha⟩
    | some t => rw [ht] at hr; exact ⟨0, .ok (), { s with tree := t }, fun _ _ => hr, fun _ _ => hs⟩

theorem withNode {nd : Node} {m : Nat → M α} {Q : α → View → Prop} (hm : Halts P m Q) :
    Halts P (fun n => Hiera.withNode nd (m n)) Q := by
  intro s hs
  have hw : ∀ n, Hiera.withNode nd (m n) s = if s.on.isNone then m n s else match s.tree.push nd with
    | none => some (.panic .nilDeref, { s with tree := s.tree.pop })
    | some t => match m n { s with tree := t } with
      | none => none
      | some (r, s') => some (r, { s' with tree := s'.tree.pop }) := fun _ => rfl
  by_cases ho : s.on.isNone = true
  · obtain ⟨N, r, t, h1, h2⟩ := hm s hs
    exact ⟨N, r, t, fun n hn => (hw n).trans (by rw [if_pos ho]; exact h1 n hn), h2⟩
  · cases ht : s.tree.push nd with
    | none =>
      exact ⟨0, .panic .nilDeref, { s with tree := s.tree.pop }, fun n _ => (hw n).trans (by rw [if_neg ho, ht]),
        fun a ha => by cases ha⟩
    | some u =>
      obtain ⟨N, r, t, h1, h2⟩ := hm { s with tree := u } hs
      exact ⟨N, r, { t with tree := t.tree.pop }, fun n hn => (hw n).trans (by rw [if_neg ho, ht]; simp only [h1 n hn]), h2⟩

theorem withCopy {f : Ic → Ic} {g : Option ExplOpts → Option ExplOpts} {m : Nat → M α} {Q Q' : α → View → Prop}
    (hm : Halts P' m Q) (hp : ∀ v, P v → P' { v with ic := f v.ic })
    (hq : ∀ a v w, P v → Q a w → Q' a { w with ic := v.ic }) : Halts P (fun n => Hiera.withCopy f g (m n)) Q' := by
  intro s hs
  have hw : ∀ n, Hiera.withCopy f g (m n) s = match m n { s with v := { s.v with ic := f s.v.ic }, on := g s.on } with
    | none => none
    | some (r, s') => some (r, { s' with v := { s'.v with ic := s.v.ic }, on := s.on }) := fun _ => rfl
  obtain ⟨N, r, t, h1, h2⟩ := hm { s with v := { s.v with ic := f s.v.ic }, on := g s.on } (hp _ hs)
  exact ⟨N, r, { t with v := { t.v with ic := s.v.ic }, on := s.on }, fun n hn => (hw n).trans (by rw [h1 n hn]),
    fun a ha => hq a s.v t.v hs (h2 a ha)⟩

theorem doRedacted {m : Nat → M α} {Q : α → View → Prop} (hm : Halts P m Q)
    (hp : ∀ v b, P v → P { v with ic := { v.ic with redacted := b } })
    (hq : ∀ a v b, Q a v → Q a { v with ic := { v.ic with redacted := b } }) : Halts P (fun n => Hiera.doRedacted (m n)) Q := by
  intro s hs
  have hw : ∀ n, Hiera.doRedacted (m n) s = if s.v.ic.redacted then m n s
      else match m n { s with v := { s.v with ic := { s.v.ic with redacted := true } } } with
    | none => none
    | some (r, s') => some (r, { s' with v := { s'.v with ic := { s'.v.ic with redacted := false } } }) := fun _ => rfl
  by_cases hr : s.v.ic.redacted = true
  · obtain ⟨N, r, t, h1, h2⟩ := hm s hs
    exact ⟨N, r, t, fun n hn => (hw n).trans (by rw [if_pos hr]; exact h1 n hn), h2⟩
  · obtain ⟨N, r, t, h1, h2⟩ := hm { s with v := { s.v with ic := { s.v.ic with redacted := true } } } (hp _ _ hs)
    exact ⟨N, r, { t with v := { t.v with ic := { t.v.ic with redacted := false } } },
      fun n hn => (hw n).trans (by rw [if_neg hr, h1 n hn]), fun a ha => hq a t.v false (h2 a ha)⟩

end Halts

end Hiera
