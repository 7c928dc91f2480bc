/- Explaining does not influence lookups, and the explainer's stack is balanced: one relation for both. -/
import Verif.Lemmas.Fuel

set_option autoImplicit false

namespace Hiera

/-- The explainer after a computation compared with before: same ancestors, current node only added to. -/
def TreeGrows : Tree → Tree → Prop
  | .at c us, .at c' us' => us' = us ∧ Grows c c'
  | _, _ => False

theorem TreeGrows.trans {a b c : Tree} (h : TreeGrows a b) (h' : TreeGrows b c) : TreeGrows a c := by
  cases a <;> cases b <;> cases c <;> simp only [TreeGrows] at *
  exact ⟨h'.1.trans h.1, h.2.trans h'.2⟩

/-- The explainer has a current node. -/
def IsAt (t : Tree) : Prop := TreeGrows t t

theorem isAt_at (c : Node) (us : List Node) : IsAt (.at c us) := ⟨rfl, Grows.refl c⟩

theorem TreeGrows.right {a b : Tree} (h : TreeGrows a b) : IsAt b := by
  cases a <;> cases b <;> simp only [TreeGrows] at h
  exact isAt_at _ _

/-- What is left of a state after a computation that started in another: explainer and its presence. -/
def Kept (s t : St) : Prop := t.on = s.on ∧ TreeGrows s.tree t.tree

theorem Kept.trans {a b c : St} (h : Kept a b) (h' : Kept b c) : Kept a c :=
  ⟨h'.1.trans h.1, h.2.trans h'.2⟩

/-- Outcomes that agree, up to the explainer (and, after a panic, up to the state). -/
def SameOut {α : Type} (s s' : St) : Option (Res α × St) → Option (Res α × St) → Prop
  | none, none => True
  | some (.ok a, t), some (.ok a', t') => a = a' ∧ t.v = t'.v ∧ Kept s t ∧ Kept s' t'
  | some (.panic e, t), some (.panic e', t') => e = e' ∧ Kept s t ∧ Kept s' t'
  | _, _ => False

/-- In states that differ in the explainer only, the computations have outcomes that differ in the explainer only. -/
def NI : Rel := fun _ m m' => ∀ s s', s.v = s'.v → IsAt s.tree → IsAt s'.tree → SameOut s s' (m s) (m' s')

theorem Kept.refl {s : St} (h : IsAt s.tree) : Kept s s := ⟨rfl, h⟩

theorem SameOut.elim {α : Type} {s s' : St} {o o' : Option (Res α × St)} (h : SameOut s s' o o') :
    (o = none ∧ o' = none) ∨
    (∃ a t t', o = some (.ok a, t) ∧ o' = some (.ok a, t') ∧ t.v = t'.v ∧ Kept s t ∧ Kept s' t') ∨
    (∃ e t t', o = some (.panic e, t) ∧ o' = some (.panic e, t') ∧ Kept s t ∧ Kept s' t') := by
  rcases o with _ | ⟨r, t⟩ <;> rcases o' with _ | ⟨r', t'⟩
  · exact Or.inl ⟨rfl, rfl⟩
  · simp only [SameOut] at h
  · cases r <;> simp only [SameOut] at h
  · cases r <;> cases r' <;> simp only [SameOut] at h
    · obtain ⟨rfl, h⟩ := h
      exact Or.inr (Or.inl ⟨_, _, _, rfl, rfl, h⟩)
    · obtain ⟨rfl, h⟩ := h
      exact Or.inr (Or.inr ⟨_, _, _, rfl, rfl, h⟩)

theorem NI.withCopy {α : Type} {m m' : M α} (f : Ic → Ic) (g g' : Option ExplOpts → Option ExplOpts) (hm : NI α m m') :
    NI α (withCopy f g m) (withCopy f g' m') := by
  intro s s' hv ht ht'
  have h := hm { s with v := { s.v with ic := f s.v.ic }, on := g s.on }
    { s' with v := { s'.v with ic := f s'.v.ic }, on := g' s'.on } (by rw [hv]) ht ht'
  unfold Hiera.withCopy
  rcases h.elim with ⟨h1, h2⟩ | ⟨a, t, t', h1, h2, h3, h4, h5⟩ | ⟨e, t, t', h1, h2, h4, h5⟩
  · rw [h1, h2]; trivial
  · rw [h1, h2]
    exact ⟨rfl, by simp only [h3, hv], ⟨rfl, h4.2⟩, ⟨rfl, h5.2⟩⟩
  · rw [h1, h2]
    exact ⟨rfl, ⟨rfl, h4.2⟩, ⟨rfl, h5.2⟩⟩

theorem withNode_off {α : Type} {m : M α} {n : Node} {s : St} (h : s.on.isNone = true) : withNode n m s = m s := by
  unfold withNode; rw [if_pos h]

theorem withNode_on {α : Type} {m : M α} {n : Node} {s : St} {c : Node} {us : List Node} (h : ¬ s.on.isNone = true)
    (ht : s.tree = .at c us) : withNode n m s = match m { s with tree := .at n (c :: us) } with
      | none => none
      | some (r, s') => some (r, { s' with tree := s'.tree.pop }) := by
  unfold withNode
  rw [if_neg h, ht]
  rfl

theorem tree_cases {t : Tree} (h : IsAt t) : ∃ c us, t = .at c us := by
  cases t with
  | «at» c us => exact ⟨c, us, rfl⟩
  | off r => exact False.elim h

theorem kept_pop {s t : St} {n c : Node} {us : List Node} (hs : s.tree = .at c us)
    (h : Kept { s with tree := .at n (c :: us) } t) : Kept s { t with tree := t.tree.pop } := by
  obtain ⟨h1, h2⟩ := h
  obtain ⟨c', us', ht⟩ := tree_cases h2.right
  simp only [ht, TreeGrows] at h2
  refine ⟨h1, ?_⟩
  simp only [ht, h2.1, Tree.pop, hs, TreeGrows]
  exact ⟨trivial, grows_appendBranch _ _⟩

theorem NI.withNode {α : Type} {m m' : M α} (n : Node) (hm : NI α m m') : NI α (withNode n m) (withNode n m') := by
  intro s s' hv ht ht'
  obtain ⟨c, us, hc⟩ := tree_cases ht
  obtain ⟨c', us', hc'⟩ := tree_cases ht'
  by_cases h0 : s.on.isNone = true <;> by_cases h0' : s'.on.isNone = true
  · rw [withNode_off h0, withNode_off h0']; exact hm s s' hv ht ht'
  · rw [withNode_off h0, withNode_on h0' hc']
    have h := hm s { s' with tree := .at n (c' :: us') } hv ht (isAt_at _ _)
    rcases h.elim with ⟨h1, h2⟩ | ⟨a, t, t', h1, h2, h3, h4, h5⟩ | ⟨e, t, t', h1, h2, h4, h5⟩
    · rw [h1, h2]; trivial
    · rw [h1, h2]; exact ⟨rfl, h3, h4, kept_pop hc' h5⟩
    · rw [h1, h2]; exact ⟨rfl, h4, kept_pop hc' h5⟩
  · rw [withNode_on h0 hc, withNode_off h0']
    have h := hm { s with tree := .at n (c :: us) } s' hv (isAt_at _ _) ht'
    rcases h.elim with ⟨h1, h2⟩ | ⟨a, t, t', h1, h2, h3, h4, h5⟩ | ⟨e, t, t', h1, h2, h4, h5⟩
    · rw [h1, h2]; trivial
    · rw [h1, h2]; exact ⟨rfl, h3, kept_pop hc h4, h5⟩
    · rw [h1, h2]; exact ⟨rfl, kept_pop hc h4, h5⟩
  · rw [withNode_on h0 hc, withNode_on h0' hc']
    have h := hm { s with tree := .at n (c :: us) } { s' with tree := .at n (c' :: us') } hv (isAt_at _ _) (isAt_at _ _)
    rcases h.elim with ⟨h1, h2⟩ | ⟨a, t, t', h1, h2, h3, h4, h5⟩ | ⟨e, t, t', h1, h2, h4, h5⟩
    · rw [h1, h2]; trivial
    · rw [h1, h2]; exact ⟨rfl, h3, kept_pop hc h4, kept_pop hc' h5⟩
    · rw [h1, h2]; exact ⟨rfl, kept_pop hc h4, kept_pop hc' h5⟩

theorem report_run (f : Node → Node) (hf : ∀ n, Grows n (f n)) (s : St) (ht : IsAt s.tree) :
    ∃ t, report f s = some (.ok (), t) ∧ t.v = s.v ∧ Kept s t := by
  obtain ⟨c, us, hc⟩ := tree_cases ht
  unfold report
  by_cases h0 : s.on.isNone = true
  · rw [if_pos h0]; exact ⟨s, rfl, rfl, Kept.refl ht⟩
  · rw [if_neg h0, hc]
    refine ⟨_, rfl, rfl, rfl, ?_⟩
    simp only [hc, TreeGrows]
    exact ⟨trivial, hf c⟩

theorem NI.core : CoreV NI where
  pure := fun a s s' hv ht ht' => ⟨rfl, hv, Kept.refl ht, Kept.refl ht'⟩
  bind := by
    intro α β m m' f f' hm hf s s' hv ht ht'
    rcases (hm s s' hv ht ht').elim with ⟨h1, h2⟩ | ⟨a, t, t', h1, h2, h3, h4, h5⟩ | ⟨e, t, t', h1, h2, h4, h5⟩
    · rw [bind_none h1, bind_none h2]; trivial
    · rw [bind_ok h1, bind_ok h2]
      rcases (hf a t t' h3 h4.2.right h5.2.right).elim with
        ⟨g1, g2⟩ | ⟨b, u, u', g1, g2, g3, g4, g5⟩ | ⟨e, u, u', g1, g2, g4, g5⟩
      · rw [g1, g2]; trivial
      · rw [g1, g2]; exact ⟨rfl, g3, h4.trans g4, h5.trans g5⟩
      · rw [g1, g2]; exact ⟨rfl, h4.trans g4, h5.trans g5⟩
    · rw [bind_panic h1, bind_panic h2]; exact ⟨rfl, h4, h5⟩
  panic := fun e s s' _ ht ht' => ⟨rfl, Kept.refl ht, Kept.refl ht'⟩
  view := fun s s' hv ht ht' => ⟨hv, hv, Kept.refl ht, Kept.refl ht'⟩
  withNode := fun n hm => NI.withNode n hm
  report := by
    intro f hf s s' hv ht ht'
    obtain ⟨t, h1, h2, h3⟩ := report_run f hf s ht
    obtain ⟨t', h1', h2', h3'⟩ := report_run f hf s' ht'
    rw [h1, h1']
    exact ⟨rfl, by rw [h2, h2', hv], h3, h3'⟩

theorem NI.update (f : View → View) : NI Unit (update f) (update f) :=
  fun s s' hv ht ht' => ⟨rfl, by simp only [hv], ⟨rfl, ht⟩, ⟨rfl, ht'⟩⟩

theorem NI.doRedacted {α : Type} {m m' : M α} (hm : NI α m m') : NI α (doRedacted m) (doRedacted m') := by
  intro s s' hv ht ht'
  unfold Hiera.doRedacted
  rw [← hv]
  by_cases h0 : s.v.ic.redacted = true
  · rw [if_pos h0, if_pos h0]; exact hm s s' hv ht ht'
  · rw [if_neg h0, if_neg h0]
    have h := hm { s with v := { s.v with ic := { s.v.ic with redacted := true } } }
      { s' with v := { s.v with ic := { s.v.ic with redacted := true } } } rfl ht ht'
    rcases h.elim with ⟨h1, h2⟩ | ⟨a, t, t', h1, h2, h3, h4, h5⟩ | ⟨e, t, t', h1, h2, h4, h5⟩
    · rw [h1, h2]; trivial
    · rw [h1, h2]
      exact ⟨rfl, by simp only [h3], ⟨h4.1, h4.2⟩, ⟨h5.1, h5.2⟩⟩
    · rw [h1, h2]
      exact ⟨rfl, ⟨h4.1, h4.2⟩, ⟨h5.1, h5.2⟩⟩

/-! ### Code that leaves the `ivContext` as it is, unless it panics -/

def PresIc {α : Type} (m : M α) : Prop := ∀ s a t, m s = some (.ok a, t) → t.v.ic = s.v.ic

theorem PresIc.pure {α : Type} (a : α) : PresIc (Pure.pure a) := by
  intro s b t h
  cases h; rfl

theorem PresIc.panic {α : Type} (e : Err) : PresIc (panic e : M α) := by
  intro s b t h
  cases h

theorem PresIc.hang {α : Type} : PresIc (hang : M α) := by
  intro s b t h
  cases h

theorem PresIc.view : PresIc view := by
  intro s b t h
  cases h; rfl

theorem PresIc.bind {α β : Type} {m : M α} {f : α → M β} (hm : PresIc m) (hf : ∀ a, PresIc (f a)) : PresIc (m >>= f) := by
  intro s b t h
  rw [bind_def] at h
  cases h1 : m s with
  | none => rw [h1] at h; cases h
  | some o =>
    rcases o with ⟨_ | _, u⟩ <;> rw [h1] at h
    · exact (hf _ u b t h).trans (hm s _ u h1)
    · cases h

theorem PresIc.withNode {α : Type} {m : M α} (n : Node) (hm : PresIc m) : PresIc (withNode n m) := by
  intro s b t h
  unfold Hiera.withNode at h
  by_cases h0 : s.on.isNone = true
  · rw [if_pos h0] at h; exact hm _ _ _ h
  · rw [if_neg h0] at h
    cases h1 : s.tree.push n with
    | none => rw [h1] at h; cases h
    | some tr =>
      simp only [h1] at h
      cases h2 : m { s with tree := tr } with
      | none => rw [h2] at h; cases h
      | some o =>
        rcases o with ⟨_ | _, u⟩ <;> rw [h2] at h
        · cases h; exact (hm { s with tree := tr } _ u h2 :)
        · cases h

theorem PresIc.report (f : Node → Node) : PresIc (report f) := by
  intro s b t h
  unfold Hiera.report at h
  by_cases h0 : s.on.isNone = true
  · rw [if_pos h0] at h; cases h; rfl
  · rw [if_neg h0] at h
    cases h1 : s.tree.accept f with
    | none => rw [h1] at h; cases h
    | some tr => rw [h1] at h; cases h; rfl

theorem PresIc.newProvider (e : Entry) : PresIc (newProvider e) := by
  intro s b t h
  cases h; rfl

theorem PresIc.doWithScope {α : Type} {m : M α} (sc : Scope) (hm : PresIc m) : PresIc (doWithScope sc m) := by
  intro s b t h
  change (match m { s with v := { s.v with ic := { s.v.ic with scope := sc } } } with
    | none => none
    | some (Res.ok a, s') => some (Res.ok a, { s' with v := { s'.v with ic := { s'.v.ic with scope := s.v.ic.scope } } })
    | some (Res.panic e, s') => some (Res.panic e, s')) = _ at h
  cases h1 : m { s with v := { s.v with ic := { s.v.ic with scope := sc } } } with
  | none => rw [h1] at h; cases h
  | some o =>
    rcases o with ⟨_ | _, u⟩ <;> rw [h1] at h
    · cases h
      have := hm _ _ _ h1
      simp only [this]
    · cases h

/-- `NI` of code that leaves the `ivContext` as it is. -/
def NIC : Rel := fun α m m' => NI α m m' ∧ PresIc m ∧ PresIc m'

theorem NIC.core : CoreV NIC where
  pure := fun a => ⟨NI.core.pure a, .pure a, .pure a⟩
  bind := fun hm hf => ⟨NI.core.bind hm.1 (fun a => (hf a).1), .bind hm.2.1 (fun a => (hf a).2.1),
    .bind hm.2.2 (fun a => (hf a).2.2)⟩
  panic := fun e => ⟨NI.core.panic e, .panic e, .panic e⟩
  view := ⟨NI.core.view, .view, .view⟩
  withNode := fun n hm => ⟨NI.core.withNode n hm.1, .withNode n hm.2.1, .withNode n hm.2.2⟩
  report := fun f hf => ⟨NI.core.report f hf, .report f, .report f⟩

theorem NI.forConfig {α : Type} {m m' : M α} (hm : NIC α m m') : NI α (forConfig m) (forConfig m') := by
  intro s s' hv ht ht'
  unfold Hiera.forConfig
  by_cases h0 : s.on.isNone = true <;> by_cases h0' : s'.on.isNone = true
  · rw [if_pos h0, if_pos h0']; exact hm.1 s s' hv ht ht'
  · rw [if_pos h0, if_neg h0']
    unfold Hiera.withCopy
    have h := hm.1 s { s' with v := { s'.v with ic := id s'.v.ic }, on := none } hv ht ht'
    rcases h.elim with ⟨h1, h2⟩ | ⟨a, t, t', h1, h2, h3, h4, h5⟩ | ⟨e, t, t', h1, h2, h4, h5⟩
    · rw [h1, h2]; trivial
    · have hp := hm.2.1 _ _ _ h1
      rw [h1, h2]
      refine ⟨rfl, ?_, h4, ⟨rfl, h5.2⟩⟩
      simp only [← hv, ← hp, ← h3]
    · rw [h1, h2]; exact ⟨rfl, h4, ⟨rfl, h5.2⟩⟩
  · rw [if_neg h0, if_pos h0']
    unfold Hiera.withCopy
    have h := hm.1 { s with v := { s.v with ic := id s.v.ic }, on := none } s' hv ht ht'
    rcases h.elim with ⟨h1, h2⟩ | ⟨a, t, t', h1, h2, h3, h4, h5⟩ | ⟨e, t, t', h1, h2, h4, h5⟩
    · rw [h1, h2]; trivial
    · have hp := hm.2.2 _ _ _ h2
      rw [h1, h2]
      refine ⟨rfl, ?_, ⟨rfl, h4.2⟩, h5⟩
      simp only [hv, ← hp, h3]
    · rw [h1, h2]; exact ⟨rfl, ⟨rfl, h4.2⟩, h5⟩
  · rw [if_neg h0, if_neg h0']; exact NI.withCopy _ _ _ hm.1 s s' hv ht ht'

theorem NI.hang {α : Type} : NI α hang hang := fun _ _ _ _ _ => trivial

theorem NI.doWithScope {α : Type} {m m' : M α} (sc : Scope) (hm : NI α m m') :
    NI α (doWithScope sc m) (doWithScope sc m') :=
  NI.core.bind NI.core.view (fun _ => NI.core.bind (NI.update _) (fun _ => NI.core.bind hm (fun _ =>
    NI.core.bind (NI.update _) (fun _ => NI.core.pure _))))

theorem NI.base : Base NI :=
  { NI.core with
    hang := NI.hang
    update := NI.update
    withCopy := fun f g _ hm => NI.withCopy f g g hm
    doRedacted := NI.doRedacted }

theorem NI.closed (E : Env) : Closed E NI NIC :=
  NI.base.closedWith E NIC.core.toCore
    (fun sc hm => ⟨NI.doWithScope sc hm.1, .doWithScope sc hm.2.1, .doWithScope sc hm.2.2⟩)
    (fun e => ⟨NI.base.newProvider e, .newProvider e, .newProvider e⟩)
    NI.forConfig

theorem NI.eval (E : Env) (n : Nat) : RecRel NI NIC (eval E n) (eval E n) :=
  (NI.closed E).eval (fun _ => NI.hang) (fun _ => ⟨NI.hang, .hang, .hang⟩) n

end Hiera
