/- C78, C81, C93: invocations that have an explainer. -/
import Verif.Props.Files
import Verif.Props.Explain

set_option autoImplicit false

namespace Hiera
open Value Spec World

/-- What an invocation may have been used for before: lookups, none of which has failed. -/
inductive Spec.Calm (E : Env) (s0 : St) : St → Prop
  | start : Calm E s0 s0
  | lookup {s t : St} {v : Option Value} (n : Nat) (k : Key) (opts : Entries) : Calm E s0 s →
      (eval E n).lookup k opts s = some (.ok v, t) → Calm E s0 t

/-- The same, while files change between lookups. -/
inductive Spec.CalmChanging (E : Env) (s0 : St) : St → Prop
  | start : CalmChanging E s0 s0
  | lookup {s t : St} {v : Option Value} (f : Files) (n : Nat) (k : Key) (opts : Entries) : CalmChanging E s0 s →
      (eval (readingFiles E f) n).lookup k opts s = some (.ok v, t) → CalmChanging E s0 t

theorem gives_alike {E : Env} {s s' : St} (hv : s.v = s'.v) (ht : IsAt s.tree) (ht' : IsAt s'.tree) (k : Key) (o : Entries)
    (r : Res (Option Value)) : Gives E s k o r ↔ Gives E s' k o r := by
  have : ∀ n, ((eval E n).lookup k o s).map Prod.fst = ((eval E n).lookup k o s').map Prod.fst := by
    intro n
    rcases ((NI.eval E n).lookup k o s s' hv ht ht').elim with ⟨h1, h2⟩ | ⟨a, t, t', h1, h2, _⟩ | ⟨e, t, t', h1, h2, _⟩ <;> rw [h1, h2] <;> rfl
  rw [gives_iff, gives_iff]
  simp only [this]

/-- The lookup of an invocation without an explainer that corresponds to one that has not failed. -/
theorem lookup_alike {E : Env} {n : Nat} {k : Key} {o : Entries} {s s' t : St} {v : Option Value} (hv : s.v = s'.v) (ht : IsAt s.tree)
    (ht' : IsAt s'.tree) (h : (eval E n).lookup k o s = some (.ok v, t)) :
    ∃ t', (eval E n).lookup k o s' = some (.ok v, t') ∧ t.v = t'.v ∧ IsAt t.tree ∧ IsAt t'.tree := by
  rcases ((NI.eval E n).lookup k o s s' hv ht ht').elim with ⟨h1, _⟩ | ⟨a, u, u', h1, h2, h3, h4, h5⟩ | ⟨e, u, u', h1, _⟩
  · rw [h1] at h; cases h
  · rw [h1] at h
    cases h
    exact ⟨u', h2, h3, h4.2.right, h5.2.right⟩
  · rw [h1] at h; cases h

theorem Spec.Calm.alike {E : Env} {s0 s0' t : St} (hv : s0.v = s0'.v) (ht : IsAt s0.tree) (ht' : IsAt s0'.tree) (h : Calm E s0 t) :
    ∃ t', History E s0' t' ∧ t.v = t'.v ∧ IsAt t.tree ∧ IsAt t'.tree := by
  induction h with
  | start => exact ⟨s0', .start, hv, ht, ht'⟩
  | lookup n k o _ hl ih =>
    obtain ⟨u, hu, h1, h2, h3⟩ := ih
    obtain ⟨t', hl', h4⟩ := lookup_alike h1 h2 h3 hl
    exact ⟨t', .lookup n k o hu hl', h4⟩

theorem Spec.CalmChanging.alike {E : Env} {s0 s0' t : St} (hv : s0.v = s0'.v) (ht : IsAt s0.tree) (ht' : IsAt s0'.tree)
    (h : CalmChanging E s0 t) : ∃ t', Changing E s0' t' ∧ t.v = t'.v ∧ IsAt t.tree ∧ IsAt t'.tree := by
  induction h with
  | start => exact ⟨s0', .start, hv, ht, ht'⟩
  | lookup f n k o _ hl ih =>
    obtain ⟨u, hu, h1, h2, h3⟩ := ih
    obtain ⟨t', hl', h4⟩ := lookup_alike h1 h2 h3 hl
    exact ⟨t', .lookup f n k o hu hl', h4⟩

/-- C78 for invocations that have an explainer, as long as no lookup fails. -/
theorem C78_explained_partial (E : Env) (ht : TameEnv E) (hc : ConfigFirst E) {s : St} (hs : Session E s) (hl : s.v.locked = [])
    (scope : Scope) (x : ExplOpts) {k0 : Key} (hk0 : k0.root ≠ "lookup_options".toList) {o0 : Entries} {v0 : Option Value}
    (h0 : Gives E (nextInvocation s scope (some x)) k0 o0 (.ok v0)) {t : St} (h : Calm E (nextInvocation s scope (some x)) t)
    (k : Key) (o : Entries) (r : Res (Option Value)) :
    Gives E t k o r ↔ Gives E (nextInvocation s scope (some x)) k o r := by
  have a1 : IsAt (nextInvocation s scope (some x)).tree := isAt_at _ _
  have a2 : IsAt (nextInvocation s scope none).tree := isAt_at _ _
  obtain ⟨t', hh, h1, h2, h3⟩ := h.alike (s0 := nextInvocation s scope (some x)) (s0' := nextInvocation s scope none) rfl a1 a2
  rw [gives_alike h1 h2 h3, gives_alike (s := nextInvocation s scope (some x)) (s' := nextInvocation s scope none) rfl a1 a2]
  exact C78_history_partial E ht hc hs hl scope hk0 ((gives_alike (s := nextInvocation s scope (some x)) (s' := nextInvocation s scope none) rfl a1 a2 k0 o0 _).1 h0) hh k o r

/-- C81 for invocations that have an explainer and have been used before, as long as no lookup fails. -/
theorem C81_explained (E : Env) (he : StatelessEnv E) {s : St} (hs : Session E s) (hl : s.v.locked = [])
    (scope : Scope) (x : ExplOpts) {k0 : Key} (hk0 : k0.root ≠ "lookup_options".toList) {o0 : Entries} {v0 : Option Value}
    (h0 : Answer E scope k0 o0 (.ok v0)) {t : St} (h : Calm E (nextInvocation s scope (some x)) t)
    (k : Key) (o : Entries) (r : Res (Option Value)) : Gives E t k o r ↔ Answer E scope k o r := by
  have a1 : IsAt (nextInvocation s scope (some x)).tree := isAt_at _ _
  have a2 : IsAt (nextInvocation s scope none).tree := isAt_at _ _
  obtain ⟨t', hh, h1, h2, h3⟩ := h.alike (s0 := nextInvocation s scope (some x)) (s0' := nextInvocation s scope none) rfl a1 a2
  rw [gives_alike h1 h2 h3]
  exact C81_history E he hs hl scope hk0 h0 hh k o r

/-- C93 for invocations that have an explainer, as long as no lookup fails. -/
theorem C93_explained (E : Env) (ht : TameEnv E) (hc : ConfigFirst E) {c : FileRes} {C : Cfg} (hC : newCfg E.cfg E.configPath c = .ok C)
    {s : St} (hs : Lasting E c s) (scope : Scope) (x : ExplOpts) (f : Files) (hf : f.readYaml E.configPath = c) {n : Nat} {k0 : Key}
    {o0 : Entries} {r0 : Option Value} {v w : St} (hk : k0.root ≠ "lookup_options".toList)
    (h : (eval (readingFiles E f) n).lookup k0 o0 (nextInvocation s scope (some x)) = some (.ok r0, v)) (hw : CalmChanging E v w)
    (g : Files) (k : Key) (o : Entries) (r : Res (Option Value)) :
    Gives (readingFiles E g) w k o r ↔ Gives (readingFiles E f) (nextInvocation s scope (some x)) k o r := by
  have a1 : IsAt (nextInvocation s scope (some x)).tree := isAt_at _ _
  have a2 : IsAt (nextInvocation s scope none).tree := isAt_at _ _
  obtain ⟨v', hv', b1, b2, b3⟩ := lookup_alike (s := nextInvocation s scope (some x)) (s' := nextInvocation s scope none) rfl a1 a2 h
  obtain ⟨w', hw', c1, c2, c3⟩ := hw.alike b1 b2 b3
  rw [gives_alike c1 c2 c3, gives_alike (s := nextInvocation s scope (some x)) (s' := nextInvocation s scope none) rfl a1 a2]
  exact C93_snapshot E ht hc hC hs scope f hf hk hv' hw' g k o r

/-- The case of C93 (`Props/Files`), with an explainer: after the first lookup the files change, and the invocation gives what it
has read. -/
example : ∃ v w, (eval (readingFiles filesBefore (filesOf filesBefore)) 5).lookup keyX [] (newInvocation (.map []) (some ⟨false, false⟩)) =
      some (.ok (some (World.s "one")), v) ∧
    CalmChanging filesBefore v w ∧
    (eval (readingFiles filesBefore (filesOf filesAfter)) 5).lookup keyX [] v = some (.ok (some (World.s "one")), w) := by
  have h : (match (eval (readingFiles filesBefore (filesOf filesBefore)) 5).lookup keyX [] (newInvocation (.map []) (some ⟨false, false⟩)) with
    | some (.ok a, v) => decide (a = some (World.s "one")) && match (eval (readingFiles filesBefore (filesOf filesAfter)) 5).lookup keyX [] v with
      | some (.ok b, _) => decide (b = some (World.s "one"))
      | _ => false
    | _ => false) = true := by decide +kernel
  split at h
  · rename_i a v h1
    rw [Bool.and_eq_true, decide_eq_true_eq] at h
    obtain ⟨rfl, h⟩ := h
    split at h
    · rename_i b w h2
      rw [decide_eq_true_eq] at h
      subst h
      exact ⟨v, w, h1, .lookup _ 5 keyX [] .start h2, h2⟩
    · cases h
  · cases h

end Hiera
