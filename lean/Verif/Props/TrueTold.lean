/- C91: what explanations tell is true. -/
import Verif.Spec.TrueTold
import Verif.Props.ExplainTold
import Verif.Props.DigTold
import Verif.Props.Printed

set_option autoImplicit false

namespace Hiera

open Value Spec World

/-! ### Computations that are asked in some states only -/

/-- The state is one of those meant, and the explainer has a current node. -/
def Meant (J : View → Prop) (s : St) : Prop := J s.v ∧ IsAt s.tree

/-- The same computation in the states meant; none in others. -/
noncomputable def guardM (J : View → Prop) {α : Type} (m : M α) : M α := fun s =>
  open Classical in if Meant J s then m s else none

/-- In the states meant, both do the same, lead to such states and add to the current node only. -/
def Agree (J : View → Prop) : Rel := fun _ m m' => ∀ s, Meant J s → m s = m' s ∧
  ∀ r t, m s = some (r, t) → Kept s t ∧ ∀ a, r = .ok a → J t.v

theorem Agree.coreV (J : View → Prop) : CoreV (Agree J) where
  pure := fun a s hs => ⟨rfl, fun r t h => by cases h; exact ⟨.refl hs.2, fun _ _ => hs.1⟩⟩
  bind := by
    intro α β m m' f f' hm hf s hs
    obtain ⟨h1, h2⟩ := hm s hs
    rw [bind_def, bind_def, ← h1]
    cases hr : m s with
    | none => exact ⟨rfl, fun _ _ h => nomatch h⟩
    | some x =>
      obtain ⟨a | e, t⟩ := x
      · obtain ⟨h3, h4⟩ := h2 _ t hr
        obtain ⟨h5, h6⟩ := hf a t ⟨h4 a rfl, h3.2.right⟩
        exact ⟨h5, fun r u hu => ⟨h3.trans (h6 r u hu).1, (h6 r u hu).2⟩⟩
      · exact ⟨rfl, fun r u hu => by cases hu; exact ⟨(h2 _ _ hr).1, fun _ h => nomatch h⟩⟩
  panic := fun e s hs => ⟨rfl, fun r t h => by cases h; exact ⟨.refl hs.2, fun _ h => nomatch h⟩⟩
  view := fun s hs => ⟨rfl, fun r t h => by cases h; exact ⟨.refl hs.2, fun _ _ => hs.1⟩⟩
  withNode := by
    intro α m m' n hm s hs
    obtain ⟨c, us, hc⟩ := tree_cases hs.2
    by_cases ho : s.on.isNone = true
    · rw [withNode_off ho, withNode_off ho]; exact hm s hs
    · rw [withNode_on ho hc, withNode_on ho hc]
      obtain ⟨h1, h2⟩ := hm { s with tree := .at n (c :: us) } ⟨hs.1, isAt_at _ _⟩
      rw [← h1]
      refine ⟨rfl, fun r t h => ?_⟩
      cases hr : m { s with tree := .at n (c :: us) } with
      | none => rw [hr] at h; cases h
      | some x =>
        obtain ⟨q, u⟩ := x
        rw [hr] at h
        cases h
        obtain ⟨h3, h4⟩ := h2 _ u hr
        exact ⟨kept_pop hc h3, h4⟩
  report := by
    intro f hf s hs
    refine ⟨rfl, fun r t h => ?_⟩
    obtain ⟨u, h1, h2, h3⟩ := report_run f hf s hs.2
    rw [h1] at h
    cases h
    exact ⟨h3, fun _ _ => h2 ▸ hs.1⟩

/-- A computation gives what is said, in the states meant, and leads to such states. -/
def IsTrue (J : View → Prop) (m : M (Option Value)) (x : Ans (Option Value)) : Prop :=
  ∀ s r t, Meant J s → m s = some (r, t) → x = some r ∧ Kept s t ∧ ∀ a, r = .ok a → J t.v

theorem IsTrue.agree {J : View → Prop} {m : M (Option Value)} {x : Ans (Option Value)} (h : IsTrue J m x) :
    Agree J _ m (guardM J m) := by
  intro s hs
  refine ⟨?_, fun r t hr => (h s r t hs hr).2⟩
  unfold guardM
  rw [if_pos hs]

theorem IsTrue.adds {J : View → Prop} {m : M (Option Value)} {x : Ans (Option Value)} (h : IsTrue J m x)
    {P : Res (Option Value) → Node → Prop} (hA : ∀ (s : St) (c : Node) (us : List Node) (r : Res (Option Value)) (t : St),
      s.on.isNone = false → s.tree = .at c us → J s.v → m s = some (r, t) → t.on = s.on ∧ ∃ b, t.tree = .at (c.appendBranch b) us ∧ P r b) :
    Adds (fun r b => P r b ∧ x = some r) (guardM J m) := by
  intro s c us r t ho ht hr
  unfold guardM at hr
  split at hr
  · rename_i hs
    obtain ⟨h1, b, h2, h3⟩ := hA s c us r t ho ht hs.1 hr
    exact ⟨h1, b, h2, h3, (h s r t hs hr).1⟩
  · cases hr

/-- Places that are asked one after the other: each node tells the truth. -/
theorem section_true {J : View → Prop} {α : Type} {P : α → Res (Option Value) → Node → Prop} {f : α → M (Option Value)}
    {g : α → Ans (Option Value)} (hT : ∀ v, IsTrue J (f v) (g v))
    (hA : ∀ (v : α) (s : St) (c : Node) (us : List Node) (r : Res (Option Value)) (t : St),
      s.on.isNone = false → s.tree = .at c us → J s.v → f v s = some (r, t) → t.on = s.on ∧ ∃ b, t.tree = .at (c.appendBranch b) us ∧ P v r b)
    (st : Strategy) (vs : List α) {s : St} {c : Node} {us : List Node} {r : Res (Option Value)} {t : St} (ho : s.on.isNone = false)
    (ht : s.tree = .at c us) (hs : J s.v) (h : mergeM st vs f s = some (r, t)) :
    t.on = s.on ∧ ∃ c' bs, t.tree = .at c' us ∧ (c'.kind = c.kind ∧ c'.key = c.key) ∧ c'.branches = c.branches ++ bs ∧
      Section st (fun v o b => P v o b ∧ g v = some o) vs r bs := by
  have e := ((Agree.coreV J).toCore.mergeM st vs f (fun v => guardM J (f v)) (fun v _ => (hT v).agree) s
    ⟨hs, by rw [ht]; exact isAt_at _ _⟩).1
  rw [e] at h
  exact mergeM_section (fun v => (hT v).adds (hA v)) st vs s c us r t ho ht h

/-! ### Places -/

/-- A view of an invocation in which the configuration is resolved, or not yet. -/
def Stands (E : Env) (site : Option Site) (C : Ctx) (v : View) : Prop := Inv E site C ⟨v, none, .at (.new .root) []⟩

theorem IsTrue.of_sim {E : Env} {site : Option Site} {C : Ctx} {m : M (Option Value)} {a : Ans (Option Value)} (hn : NI _ m m)
    (hs : SimE E site C m a) : IsTrue (Stands E site C) m a := by
  intro s r t hm h
  have h1 := hs _ hm.1
  rcases (hn s ⟨s.v, none, .at (.new .root) []⟩ rfl hm.2 (isAt_at _ _)).elim with
    ⟨h2, _⟩ | ⟨b, t1, t2, h2, h3, h4, h5, _⟩ | ⟨e, t1, t2, h2, h3, h5, _⟩
  · rw [h2] at h; cases h
  · rw [h2] at h
    cases h
    rw [h3] at h1
    match a, h1 with
    | some (.ok y), ⟨b', u, h6, h7, h8⟩ =>
      cases h6
      cases h7
      refine ⟨rfl, h5, fun _ _ => ?_⟩
      rw [h4]
      exact ⟨rfl, h8.scope, h8.coh, fun y hy => ⟨(h8.at_ y hy).cfg⟩, h8.within, fun h => ⟨(h8.un h).1, (h8.un h).2, (h8.un h).3⟩⟩
    | some (.panic e), ⟨u, h6⟩ => cases h6
  · rw [h2] at h
    cases h
    rw [h3] at h1
    match a, h1 with
    | some (.ok y), ⟨b', u, h6, h7, h8⟩ => cases h6
    | some (.panic e), ⟨u, h6⟩ =>
      cases h6
      exact ⟨rfl, h5, fun _ h => nomatch h⟩

section
variable {E : Env} (he : StatelessEnv E) {site : Option Site} {S : Scope → Prop} {n : Nat} {rf : Ref} (hr : RecSim E site S (eval E n) rf)
  {C : Ctx} (hS : S C.scope)
include he hr hS

theorem invoke_true (p : Prov) (k : Key) (l : Loc) (hl : p.entry.locations.isSome = true) :
    IsTrue (Stands E site C) (invokeWithLocation E (eval E n) p k l) (refAt E rf C k p.entry l) :=
  .of_sim ((NI.base.asking E).invokeWithLocation (NI.eval E n) p k l (fun _ _ => trivial))
    (invoke_sim hr he.keyFn hS p k l hl)

theorem mergeLocations_true (k : Key) (st : Strategy) (p : Prov) :
    IsTrue (Stands E site C) (mergeLocations E (eval E n) k st p) (refEntry E rf C k st p.entry) :=
  .of_sim ((NI.closed E).mergeLocations (NI.eval E n) k st p) (mergeLocations_sim hr he.keyFn hS k st p)

theorem mergeLocations_tells (k : Key) (st : Strategy) (p : Prov) (s : St) (c : Node) (us : List Node) (r : Res (Option Value)) (t : St)
    (ho : s.on.isNone = false) (ht : s.tree = .at c us) (hs : Stands E site C s.v)
    (h : mergeLocations E (eval E n) k st p s = some (r, t)) :
    t.on = s.on ∧ ∃ b, t.tree = .at (c.appendBranch b) us ∧ ProvTrue E rf C st k p r b := by
  have hT := (mergeLocations_true he hr hS k st p s r t ⟨hs, by rw [ht]; exact isAt_at _ _⟩ h).1
  unfold mergeLocations at h
  rw [fullName_is, withNode_on (by rw [ho]; decide) ht] at h
  generalize hs' : ({ s with tree := .at (.new (.dataProvider (providerName p.entry))) (c :: us) } : St) = s' at h
  have ho' : s'.on.isNone = false := by rw [← hs']; exact ho
  have ht' : s'.tree = .at (.new (.dataProvider (providerName p.entry))) (c :: us) := by rw [← hs']
  have hJ : Stands E site C s'.v := by rw [← hs']; exact hs
  have e' : s'.on = s.on := by rw [← hs']
  unfold ProvTrue
  cases hp : p.entry.locations with
  | none =>
    rw [hp] at h
    dsimp only at h
    cases hq : provLookup E (eval E n) p none k s' with
    | none => rw [hq] at h; cases h
    | some q =>
      obtain ⟨q, u⟩ := q
      rw [hq] at h
      cases h
      obtain ⟨h1, b, h2, h3, h4⟩ := provLookup_told E n p none k s' _ _ r u ho' ht' hq
      exact ⟨h1.trans e', b, by simp only [h2, Tree.pop], h3, hT, h4⟩
  | some ls =>
    rw [hp] at h
    have hl : p.entry.locations.isSome = true := by rw [hp]; rfl
    have hA : ∀ (l : Loc) (s : St) (c : Node) (us : List Node) (r : Res (Option Value)) (t : St),
        s.on.isNone = false → s.tree = .at c us → Stands E site C s.v → invokeWithLocation E (eval E n) p k l s = some (r, t) →
        t.on = s.on ∧ ∃ b, t.tree = .at (c.appendBranch b) us ∧ LocTold p k l r b :=
      fun l s c us r t h1 h2 _ h3 => invokeWithLocation_told E n p k l s c us r t h1 h2 h3
    have hI := fun l => invoke_true he hr hS p k l hl
    rcases ls with _ | ⟨l, _ | ⟨l', ls⟩⟩
    · dsimp only at h
      rw [show (pure none : M (Option Value)) = mergeM st [] (invokeWithLocation E (eval E n) p k) by cases st <;> rfl] at h
      cases hq : mergeM st [] (invokeWithLocation E (eval E n) p k) s' with
      | none => rw [hq] at h; cases h
      | some q =>
        obtain ⟨q, u⟩ := q
        rw [hq] at h
        cases h
        obtain ⟨h1, c', bs, h2, h3, h4, h5⟩ := section_true hI hA st [] ho' ht' hJ hq
        have h6 : c'.branches = bs := h4
        exact ⟨h1.trans e', c', by simp only [h2, Tree.pop], h3.1, hT, h6 ▸ h5⟩
    · dsimp only at h
      cases hq : invokeWithLocation E (eval E n) p k l s' with
      | none => rw [hq] at h; cases h
      | some q =>
        obtain ⟨q, u⟩ := q
        rw [hq] at h
        cases h
        obtain ⟨h1, b, h2, h3⟩ := invokeWithLocation_told E n p k l s' _ _ r u ho' ht' hq
        exact ⟨h1.trans e', (Node.new (.dataProvider (providerName p.entry))).appendBranch b, by simp only [h2, Tree.pop], rfl, hT, b, rfl, h3,
          (hI l s' r u ⟨hJ, by rw [ht']; exact isAt_at _ _⟩ hq).1⟩
    · dsimp only at h
      cases hq : mergeM st (l :: l' :: ls) (invokeWithLocation E (eval E n) p k) s' with
      | none => rw [hq] at h; cases h
      | some q =>
        obtain ⟨q, u⟩ := q
        rw [hq] at h
        cases h
        obtain ⟨h1, c', bs, h2, h3, h4, h5⟩ := section_true hI hA st _ ho' ht' hJ hq
        have h6 : c'.branches = bs := h4
        exact ⟨h1.trans e', c', by simp only [h2, Tree.pop], h3.1, hT, h6 ▸ h5⟩

/-- The levels of a hierarchy. -/
theorem levels_tell (k : Key) (ps : List Prov) (st : Strategy) {s : St} {c : Node} {us : List Node} {r : Res (Option Value)} {t : St}
    (ho : s.on.isNone = false) (ht : s.tree = .at c us) (hs : Stands E site C s.v)
    (h : mergeHierarchy E (eval E n) k ps st s = some (r, t)) :
    t.on = s.on ∧ ∃ c' bs, t.tree = .at c' us ∧ (c'.kind = c.kind ∧ c'.key = c.key) ∧ c'.branches = c.branches ++ bs ∧
      refHierarchy E rf C k st (ps.map Prov.entry) = some r ∧ Section st (ProvTrue E rf C st k) ps r bs := by
  have hT : IsTrue (Stands E site C) (mergeHierarchy E (eval E n) k ps st) (refHierarchy E rf C k st (ps.map Prov.entry)) :=
    .of_sim ((NI.closed E).mergeHierarchy (NI.eval E n) k ps st) (mergeHierarchy_sim hr he.keyFn hS k ps st)
  obtain ⟨h1, c', bs, h2, h3, h4, h5⟩ := section_true (fun p => mergeLocations_true he hr hS k st p)
    (fun p s c us r t => mergeLocations_tells he hr hS k st p s c us r t) st ps ho ht hs h
  refine ⟨h1, c', bs, h2, h3, h4, (hT s r t ⟨hs, by rw [ht]; exact isAt_at _ _⟩ h).1, ?_⟩
  have : (fun v o b => ProvTrue E rf C st k v o b ∧ refEntry E rf C k st v.entry = some o) = ProvTrue E rf C st k := by
    funext v o b
    exact propext ⟨fun h => h.1, fun h => ⟨h, h.2.1⟩⟩
  rw [this] at h5
  exact h5

end

section
variable {E : Env} (he : StatelessEnv E) (x : Site) (C : Ctx) (n : Nat)
include he

theorem mergeHierarchy_tells (k : Key) {ps : List Prov} (hps : ps.map Prov.entry = x.entries) (st : Strategy) {s : St} {c : Node} {us : List Node} {r : Res (Option Value)} {t : St}
    (ho : s.on.isNone = false) (ht : s.tree = .at c us) (hs : Stands E (some x) C s.v)
    (h : mergeHierarchy E (eval E n) k ps st s = some (r, t)) :
    t.on = s.on ∧ ∃ c' bs, t.tree = .at c' us ∧ (c'.kind = c.kind ∧ c'.key = c.key) ∧ c'.branches = c.branches ++ bs ∧
      HierarchyTrue E (ref E (some x) n) C x st k r bs := by
  obtain ⟨h1, c', bs, h2, h3, h4, h5, h6⟩ := levels_tell he (RecSim.resolved he x n) (C := C) trivial k ps st ho ht hs h
  exact ⟨h1, c', bs, h2, h3, h4, hps ▸ h5, ps, hps, h6⟩

/-! ### Lookups -/

omit he in
theorem mergeOption_tells (opts : Entries) (lo : Option Entries) {s : St} {c : Node} {us : List Node}
    (ho : s.on.isNone = false) (ht : s.tree = .at c us) :
    ∃ ms, SourceTold opts lo ms ∧ mergeOption (Entries.getS opts "merge".toList) lo s =
      some (.ok (refMergeOption opts lo), { s with tree := .at (.mk c.kind c.key c.event c.value c.texts (c.branches ++ ms)) us }) := by
  have e0 : { s with tree := .at (.mk c.kind c.key c.event c.value c.texts (c.branches ++ [])) us } = s := by
    obtain ⟨v, on, tr⟩ := s
    obtain ⟨a1, a2, a3, a4, a5, a6⟩ := c
    cases ht
    simp only [Node.branches, List.append_nil]
    rfl
  unfold mergeOption
  cases hc : Entries.getS opts "merge".toList with
  | some o =>
    refine ⟨_, .caller hc, ?_⟩
    dsimp only
    rw [bind_ok (report_on ho ht)]
    simp only [refMergeOption, hc]
    rfl
  | none =>
    dsimp only
    cases lo with
    | none => exact ⟨[], .none (by simp only [refMergeOption, hc]), by rw [e0]; simp only [refMergeOption, hc]; rfl⟩
    | some m =>
      dsimp only
      cases hm : Entries.getS m "merge".toList with
      | none => exact ⟨[], .none (by simp only [refMergeOption, hc, hm]), by rw [e0]; simp only [refMergeOption, hc, hm]; rfl⟩
      | some o =>
        refine ⟨_, .options hc rfl hm, ?_⟩
        dsimp only
        rw [bind_ok (report_on ho ht)]
        simp only [refMergeOption, hc, hm]
        rfl

/-- What the node of a lookup has, once the strategy is known. -/
theorem fetch_tells (k : Key) {ps : List Prov} (hps : ps.map Prov.entry = x.entries) (st : Strategy) {s : St} {c : Node} {us : List Node}
    {r : Res (Option Value)} {t : St} (ho : s.on.isNone = false) (ht : s.tree = .at c us) (hs : Stands E (some x) C s.v)
    (hst : s.v.ic.strategy = some st) {cv : Option (Nat × Option (List Value))} (hcv : extractConversion E s.v.ic.luOpts = .ok cv)
    (h : lookupAndConvert E (currentStrategy >>= fun st => mergeHierarchy E (eval E n) k ps st) s = some (r, t)) :
    t.on = s.on ∧ ∃ c' bs o, t.tree = .at c' us ∧ (c'.kind = c.kind ∧ c'.key = c.key) ∧ c'.branches = c.branches ++ bs ∧
      HierarchyTrue E (ref E (some x) n) C x st k o bs ∧ r = o.bind (fun v => convert E v cv) := by
  have inner : ∀ (s : St), s.on.isNone = false → s.tree = .at c us → Stands E (some x) C s.v → s.v.ic.strategy = some st →
      ∀ o u, (currentStrategy >>= fun st => mergeHierarchy E (eval E n) k ps st) s = some (o, u) →
      u.on = s.on ∧ ∃ c' bs, u.tree = .at c' us ∧ (c'.kind = c.kind ∧ c'.key = c.key) ∧ c'.branches = c.branches ++ bs ∧
        HierarchyTrue E (ref E (some x) n) C x st k o bs := by
    intro s ho ht hs hst o u h
    rw [bind_ok (show currentStrategy s = some (.ok st, s) by
      unfold currentStrategy
      rw [bind_ok (show view s = some (.ok s.v, s) from rfl), hst]
      rfl)] at h
    exact mergeHierarchy_tells he x C n k hps st ho ht hs h
  have fetch : ∀ o u, maybeRedacted E cv (currentStrategy >>= fun st => mergeHierarchy E (eval E n) k ps st) s = some (o, u) →
      u.on = s.on ∧ ∃ c' bs, u.tree = .at c' us ∧ (c'.kind = c.kind ∧ c'.key = c.key) ∧ c'.branches = c.branches ++ bs ∧
        HierarchyTrue E (ref E (some x) n) C x st k o bs := by
    intro o u h
    unfold maybeRedacted at h
    rcases cv with _ | ⟨ty, as⟩
    · exact inner s ho ht hs hst o u h
    · dsimp only at h
      split at h
      · unfold doRedacted at h
        split at h
        · exact inner s ho ht hs hst o u h
        · generalize hs' : ({ s with v := { s.v with ic := { s.v.ic with redacted := true } } } : St) = s' at h
          cases hr : (currentStrategy >>= fun st => mergeHierarchy E (eval E n) k ps st) s' with
          | none => rw [hr] at h; cases h
          | some q =>
            obtain ⟨o', u'⟩ := q
            rw [hr] at h
            cases h
            obtain ⟨h1, h2⟩ := inner s' (by rw [← hs']; exact ho) (by rw [← hs']; exact ht)
              (by rw [← hs']; exact ⟨rfl, hs.scope, hs.coh, fun y hy => ⟨(hs.at_ y hy).cfg⟩, hs.within, fun h => nomatch h⟩)
              (by rw [← hs']; exact hst) _ _ hr
            exact ⟨h1.trans (by rw [← hs']), h2⟩
      · exact inner s ho ht hs hst o u h
  unfold lookupAndConvert at h
  rw [bind_ok (show view s = some (.ok s.v, s) from rfl), hcv, M.lift_ok_bind, bind_def] at h
  cases hr : maybeRedacted E cv (currentStrategy >>= fun st => mergeHierarchy E (eval E n) k ps st) s with
  | none => rw [hr] at h; cases h
  | some q =>
    obtain ⟨o, u⟩ := q
    obtain ⟨h1, c', bs, h2, h3, h4, h5⟩ := fetch o u hr
    rw [hr] at h
    cases o with
    | ok v =>
      dsimp only at h
      cases hv : convert E v cv with
      | ok y => rw [hv] at h; cases h; exact ⟨h1, c', bs, _, h2, h3, h4, h5, hv.symm⟩
      | panic e => rw [hv] at h; cases h; exact ⟨h1, c', bs, _, h2, h3, h4, h5, hv.symm⟩
    | panic e => cases h; exact ⟨h1, c', bs, _, h2, h3, h4, h5, rfl⟩

omit n in
/-- The node of a lookup for a caller. -/
theorem lookupNode_tells (n : Nat) {sc : Scope} {rc : RCfg} (h1 : rc.providers.map Prov.entry = x.entries) (h2 : rc.lookupOptions = x.options)
    (h3 : rc.moduleName = []) (opts : Entries) (k : Key) {ex : ExplOpts} (hx : ex.onlyOptions = false) {s : St} {c : Node} {us : List Node}
    {r : Res (Option Value)} {t : St} (ho : s.on = some ex) (ht : s.tree = .at c us) (hs : Stands E (some x) ⟨sc, .call⟩ s.v)
    (hm : s.v.ic.mode = .top) {st : Strategy}
    (hst : getStrategy (strategyNamed (refMergeOption opts (x.optionsOf k))).1 (strategyNamed (refMergeOption opts (x.optionsOf k))).2 = .ok st)
    {cv : Option (Nat × Option (List Value))} (hcv : extractConversion E (x.optionsOf k) = .ok cv)
    (h : forData (withNode (.new .lookup k.source) (do
      setMergeStrategy (Entries.getS opts "merge".toList) (rc.optionsOf k)
      lookupAndConvert E (do
        let st ← currentStrategy
        mergeHierarchy E (eval E n) k rc.providers st))) s = some (r, t)) :
    t.on = s.on ∧ ∃ b o, t.tree = .at (c.appendBranch b) us ∧ r = o.bind (fun v => convert E v cv) ∧
      LookupTrue E (ref E (some x) n) ⟨sc, .value (some st)⟩ x opts k.source (x.optionsOf k) st k o b := by
  have ex' : explForData (some ex) = some ex := by simp only [explForData, hx, Bool.false_eq_true, if_false]
  unfold forData at h
  rw [bind_ok (show view s = some (.ok s.v, s) from rfl), if_neg (by rw [hm]; simp)] at h
  unfold withCopy at h
  rw [ho, ex', optionsOf_eq h2 h3] at h
  generalize hs1 : ({ s with v := { s.v with ic := { s.v.ic with mode := .data } }, on := some ex } : St) = s1 at h
  have ho1 : s1.on = some ex := by rw [← hs1]
  have ht1 : s1.tree = .at c us := by rw [← hs1]; exact ht
  rw [withNode_on (by rw [ho1]; intro h; cases h) ht1] at h
  obtain ⟨ms, hms, hmo⟩ := mergeOption_tells opts (x.optionsOf k) (s := { s1 with tree := .at (.new .lookup k.source) (c :: us) })
    (c := .new .lookup k.source) (us := c :: us) (by show s1.on.isNone = false; rw [ho1]; rfl) rfl
  have hset : setMergeStrategy (Entries.getS opts "merge".toList) (x.optionsOf k) { s1 with tree := .at (.new .lookup k.source) (c :: us) } =
      some (.ok (), { s1 with v := { s1.v with ic := { s1.v.ic with luOpts := x.optionsOf k, strategy := some st } },
                              tree := .at (.mk .lookup k.source .none none [] ms) (c :: us) }) := by
    unfold setMergeStrategy
    rw [bind_ok hmo, bind_ok (show setLuOpts (x.optionsOf k) _ = some (.ok (), _) from rfl), hst, M.lift_ok_bind]
    rfl
  generalize hs2 : ({ s1 with v := { s1.v with ic := { s1.v.ic with luOpts := x.optionsOf k, strategy := some st } },
                              tree := .at (.mk .lookup k.source .none none [] ms) (c :: us) } : St) = s2 at hset
  have run : ∀ y : M (Option Value), (setMergeStrategy (Entries.getS opts "merge".toList) (x.optionsOf k) >>= fun _ => y)
      { s1 with tree := .at (.new .lookup k.source) (c :: us) } = y s2 := fun y => bind_ok hset
  rw [run] at h
  have hJ : Stands E (some x) ⟨sc, .value (some st)⟩ s2.v := by
    rw [← hs2, ← hs1]
    exact ⟨rfl, hs.scope, hs.coh, fun y hy => ⟨(hs.at_ y hy).cfg⟩, fun _ _ => ⟨by simp, rfl, rfl⟩, fun h => nomatch h⟩
  cases hr : lookupAndConvert E (currentStrategy >>= fun st => mergeHierarchy E (eval E n) k rc.providers st) s2 with
  | none => rw [hr] at h; cases h
  | some q =>
    obtain ⟨q, u⟩ := q
    rw [hr] at h
    cases h
    obtain ⟨g1, c', bs, o, g2, g3, g4, g5, g6⟩ := fetch_tells he x ⟨sc, .value (some st)⟩ n k h1 st (s := s2)
      (c := .mk .lookup k.source .none none [] ms) (us := c :: us) (by rw [← hs2]; show s1.on.isNone = false; rw [ho1]; rfl)
      (by rw [← hs2]) hJ (by rw [← hs2]) (by rw [← hs2]; exact hcv) hr
    exact ⟨ho.symm, c', o, by simp only [g2, Tree.pop], g6, g3.1, g3.2, ms, bs, g4, hms, g5⟩

omit he x C n in
/-- Resolving the configuration has one outcome. -/
theorem refOpen_one {C : Ctx} {n m : Nat} {a b : Res Site} (ha : refOpen E (ref E none n) C = some a)
    (hb : refOpen E (ref E none m) C = some b) : a = b := by
  have mono : ∀ {n m : Nat} {a : Res Site}, n ≤ m → refOpen E (ref E none n) C = some a → refOpen E (ref E none m) C = some a := by
    intro n m a h ha
    exact AnsLe.bind .rfl (fun c => refSite_le (ref_mono E none h) C c) a ha
  rcases Nat.le_total n m with h | h
  · rw [mono h ha] at hb; cases hb; rfl
  · rw [mono h hb] at ha; cases ha; rfl

end

/-! ### Resolving the configuration -/

/-- The explanation stays as it is. -/
def Silent (ex : ExplOpts) {α : Type} (m : M α) : Prop :=
  ∀ s r t, s.on = some ex → m s = some (r, t) → t.on = some ex ∧ t.tree = s.tree

theorem Silent.bind {ex : ExplOpts} {α β : Type} {m : M α} {f : α → M β} (hm : Silent ex m) (hf : ∀ a, Silent ex (f a)) :
    Silent ex (m >>= f) := by
  intro s r t ho h
  rw [bind_def] at h
  cases h1 : m s with
  | none => rw [h1] at h; cases h
  | some o =>
    obtain ⟨ho', ht'⟩ := hm s o.1 o.2 ho h1
    rcases o with ⟨_ | _, u⟩ <;> rw [h1] at h
    · obtain ⟨h2, h3⟩ := hf _ u r t ho' h
      exact ⟨h2, h3.trans ht'⟩
    · cases h; exact ⟨ho', ht'⟩

theorem Silent.pure {ex : ExplOpts} {α : Type} (a : α) : Silent ex (pure a) := fun s r t ho h => by cases h; exact ⟨ho, rfl⟩

theorem Silent.update {ex : ExplOpts} (f : View → View) : Silent ex (update f) := fun s r t ho h => by cases h; exact ⟨ho, rfl⟩

theorem Silent.view {ex : ExplOpts} : Silent ex Hiera.view := fun s r t ho h => by cases h; exact ⟨ho, rfl⟩

theorem Silent.loadConfig {ex : ExplOpts} (E : Env) (path : Str) : Silent ex (loadConfig E path) := by
  unfold Hiera.loadConfig
  refine .bind .view (fun v => ?_)
  split
  · exact .pure _
  · split
    · exact fun s r t ho h => nomatch h
    · refine .bind (.update _) (fun _ => ?_)
      split
      · exact .bind (.update _) (fun _ => .pure _)
      · exact .bind (.update _) (fun _ s r t ho h => by cases h; exact ⟨ho, rfl⟩)

theorem Silent.copy {ex : ExplOpts} {α : Type} {m : M α} (hm : Quiet m) (f : Ic → Ic) (g : Option ExplOpts → Option ExplOpts)
    (hg : g (some ex) = none) : Silent ex (withCopy f g m) := by
  intro s r t ho h
  unfold withCopy at h
  cases h1 : m { s with v := { s.v with ic := f s.v.ic }, on := g s.on } with
  | none => rw [h1] at h; cases h
  | some o =>
    rw [h1] at h; cases h
    exact ⟨ho, (hm _ _ _ (by rw [ho]; exact hg) h1).2⟩

theorem Silent.forConfig {ex : ExplOpts} {α : Type} {m : M α} (hm : Quiet m) : Silent ex (forConfig m) := by
  intro s r t ho h
  unfold Hiera.forConfig at h
  rw [if_neg (by rw [ho]; intro h; cases h)] at h
  exact Silent.copy hm id (fun _ => none) rfl s r t ho h

theorem quiet_providers (E : Env) (n : Nat) (c : Cfg) : Quiet (createProviders E (eval E n) c c.hierarchy >>= fun ps =>
    createProviders E (eval E n) c c.defaultHierarchy >>= fun ds => pure (ps, ds)) := by
  have h : ∀ es, Quiet (createProviders E (eval E n) c es) := fun es =>
    (QuietRel.closed E).resolving.createProviders (QuietRel.eval E n).interpC c es
  exact .bind (h _) (fun _ => .bind (h _) (fun _ => QuietRel.base.pure _))

/-- What a computation that follows the reference gives with an explainer. -/
theorem follow {E : Env} {site : Option Site} {C : Ctx} {α β : Type} {Q : α → β → Prop} {m : M α} {a : Ans β} (hs : SimQ E site C Q m a)
    (hn : NI _ m m) {s t : St} {v : α} (hv : Stands E site C s.v) (ht : IsAt s.tree) (h : m s = some (.ok v, t)) :
    ∃ b, a = some (.ok b) ∧ Q v b ∧ Stands E site C t.v := by
  have h1 := hs _ hv
  rcases (hn s ⟨s.v, none, .at (.new .root) []⟩ rfl ht (isAt_at _ _)).elim with
    ⟨h2, _⟩ | ⟨b, t1, t2, h2, h3, h4, h5, _⟩ | ⟨e, t1, t2, h2, h3, h5, _⟩
  · rw [h2] at h; cases h
  · rw [h2] at h
    cases h
    rw [h3] at h1
    match a, h1 with
    | some (.ok y), ⟨b', u, h6, h7, h8⟩ =>
      cases h6
      refine ⟨y, rfl, h7, ?_⟩
      rw [h4]
      exact ⟨rfl, h8.scope, h8.coh, fun y hy => ⟨(h8.at_ y hy).cfg⟩, h8.within, fun h => ⟨(h8.un h).1, (h8.un h).2, (h8.un h).3⟩⟩
    | some (.panic e), ⟨u, h6⟩ => cases h6
  · rw [h2] at h
    cases h

/-- If resolving the configuration has an end, then it has one with recursive calls that follow the reference. -/
theorem open_sim {E : Env} (he : StatelessEnv E) {C : Ctx} {n : Nat} {s : St} (hs : Inv E none C s)
    (h : config E (eval E n) E.configPath [] s ≠ none) :
    ∃ m, m ≤ n ∧ RecSim E none (· = C.scope) (eval E m) (ref E none m) ∧
      ∀ u, Inv E none C u → config E (eval E m) E.configPath [] u ≠ none := by
  induction n with
  | zero =>
    refine ⟨0, Nat.le_refl _, .zero E none _, fun u hu hn => h ?_⟩
    have h1 := (open_follows he C.scope 0).1 C u rfl hu
    exact ((open_follows he C.scope 0).1 C s rfl hs).none_iff.2 (h1.none_iff.1 hn)
  | succ n ih =>
    by_cases h0 : config E (eval E n) E.configPath [] s = none
    · have hd : ∀ C' u, C'.scope = C.scope → Inv E none C' u → config E (eval E n) E.configPath [] u = none := by
        intro C' u hC hu
        have hu' : Inv E none C u := ⟨hu.on, by rw [hu.scope, hC], hu.coh, hu.at_, (fun h => nomatch h), hu.un⟩
        have h1 := (open_follows he C.scope n).1 C u rfl hu'
        exact h1.none_iff.2 (((open_follows he C.scope n).1 C s rfl hs).none_iff.1 h0)
      refine ⟨n + 1, Nat.le_refl _, .succ he (fun _ => hd) ((open_follows he C.scope n).2 hd), fun u hu hn => h ?_⟩
      have h1 := (open_follows he C.scope (n + 1)).1 C u rfl hu
      exact ((open_follows he C.scope (n + 1)).1 C s rfl hs).none_iff.2 (h1.none_iff.1 hn)
    · obtain ⟨m, h1, h2⟩ := ih h0
      exact ⟨m, Nat.le_succ_of_le h1, h2⟩

/-- With an explainer, resolving the configuration tells nothing but what is told where the options of all keys are read. -/
theorem config_parts {E : Env} (he : StatelessEnv E) {C : Ctx} (n : Nat) {ex : ExplOpts} {s t : St} {c : Node}
    {us : List Node} {rc : RCfg} (ho : s.on = some ex) (ht : s.tree = .at c us) (hv : Stands E none C s.v)
    {cfg : Cfg} (hcfg : newCfg E.cfg E.configPath (E.readYaml E.configPath) = .ok cfg) {d : Nat} {x : Site}
    (hsite : refSite E (ref E none d) C cfg = some (.ok x))
    (h : config E (eval E n) E.configPath [] s = some (.ok rc, t)) :
    ∃ (m : Nat) (ps : List Prov) (lo : Option Value) (lo' : Option Value) (s4 s2 : St), RecSim E none (· = C.scope) (eval E m) (ref E none m) ∧
      refHierarchy E (ref E none m) C lookupOptionsKey (.deep []) x.entries = some (.ok lo) ∧ x.options = asMap lo ∧
      s4.on = some ex ∧ s4.tree = s.tree ∧ s4.v.ic = s.v.ic ∧ ps.map Prov.entry = x.entries ∧ Stands E none C s4.v ∧
      forLookupOptions (withNode (.new .lookup lookupOptionsKey.source) (mergeM (.deep []) ps (mergeLocations E (eval E m) lookupOptionsKey (.deep [])))) s4 =
        some (.ok lo', s2) ∧ t.on = s2.on ∧ t.tree = s2.tree ∧ t.v.ic = s2.v.ic := by
  have hp : (if E.configPath = [] then E.configPath else E.configPath) = E.configPath := by split <;> rfl
  have hn := (hv.un rfl).cfg
  have hat : IsAt s.tree := by rw [ht]; exact isAt_at _ _
  obtain ⟨m, hm1, hr, hm2⟩ := open_sim he (n := n) (s := ⟨s.v, none, .at (.new .root) []⟩) hv (by
    intro h0
    rcases ((NI.closed E).config (NI.eval E n) E.configPath [] s ⟨s.v, none, .at (.new .root) []⟩ rfl hat (isAt_at _ _)).elim with
      ⟨a1, _⟩ | ⟨_, _, _, _, a1, _⟩ | ⟨_, _, _, a1, _⟩
    · rw [h] at a1; cases a1
    · rw [h0] at a1; cases a1
    · rw [h] at a1; cases a1)
  replace h : config E (eval E m) E.configPath [] s = some (.ok rc, t) := by
    cases hq : config E (eval E m) E.configPath [] s with
    | none =>
      rcases ((NI.closed E).config (NI.eval E m) E.configPath [] s ⟨s.v, none, .at (.new .root) []⟩ rfl hat (isAt_at _ _)).elim with
        ⟨_, a1⟩ | ⟨_, _, _, a1, _⟩ | ⟨_, _, _, a1, _⟩
      · exact absurd a1 (hm2 _ hv)
      · rw [hq] at a1; cases a1
      · rw [hq] at a1; cases a1
    | some q =>
      rw [(Le.base.closed E Le.forConfig).config (eval_le E hm1) _ _ s q hq] at h
      exact h
  unfold config at h
  rw [hp, bind_ok (show view s = some (.ok s.v, s) from rfl), hn] at h
  dsimp only at h
  obtain ⟨cf, s1, h1, h⟩ := ok_of_bind h
  obtain ⟨ho1, ht1⟩ := Silent.loadConfig E _ s _ s1 ho h1
  have hat1 : IsAt s1.tree := by rw [ht1]; exact hat
  obtain ⟨cf', e1, rfl, hv1⟩ := follow (loadConfig_sim hr (C := C)) ((NI.closed E).loadConfig _) hv hat h1
  rw [hcfg] at e1
  cases e1
  obtain ⟨rc', s2, h2, h⟩ := ok_of_bind h
  obtain ⟨_, s3, h3, h⟩ := ok_of_bind h
  cases h3
  cases h
  have hx' : ∃ lo, refLevels E (ref E none m) C cfg cfg.hierarchy = some (.ok x.entries) ∧
      refHierarchy E (ref E none m) C lookupOptionsKey (.deep []) x.entries = some (.ok lo) ∧ x.options = asMap lo := by
    obtain ⟨x', a1, _⟩ := follow (resolve_sim hr he.keyFn rfl cfg) ((NI.closed E).resolve (NI.eval E m) cfg []) hv1 hat1 h2
    have hopen : ∀ {d y}, refSite E (ref E none d) C cfg = some y → refOpen E (ref E none d) C = some y := by
      intro d y h
      unfold refOpen
      rw [hcfg]
      exact h
    cases refOpen_one (hopen a1) (hopen hsite)
    unfold refSite at a1
    match hl : refLevels E (ref E none m) C cfg cfg.hierarchy, hl2 : refLevels E (ref E none m) C cfg cfg.defaultHierarchy with
    | some (.ok es), some (.ok ds) =>
      rw [hl, hl2] at a1
      match hh : refHierarchy E (ref E none m) C lookupOptionsKey (.deep []) es with
      | some (.ok lo) =>
        have a2 : (refHierarchy E (ref E none m) C lookupOptionsKey (.deep []) es >>= fun lo => (pure ⟨es, asMap lo⟩ : Ans Site)) =
          some (.ok x) := a1
        rw [hh] at a2
        cases a2
        exact ⟨lo, rfl, hh, rfl⟩
      | some (.panic e) =>
        have a2 : (refHierarchy E (ref E none m) C lookupOptionsKey (.deep []) es >>= fun lo => (pure ⟨es, asMap lo⟩ : Ans Site)) =
          some (.ok x) := a1
        rw [hh] at a2
        cases a2
      | none =>
        have a2 : (refHierarchy E (ref E none m) C lookupOptionsKey (.deep []) es >>= fun lo => (pure ⟨es, asMap lo⟩ : Ans Site)) =
          some (.ok x) := a1
        rw [hh] at a2
        cases a2
    | some (.ok es), some (.panic e) => rw [hl, hl2] at a1; cases a1
    | some (.ok es), none => rw [hl, hl2] at a1; cases a1
    | some (.panic e), _ => rw [hl] at a1; cases a1
    | none, _ => rw [hl] at a1; cases a1
  obtain ⟨lo, hx1, hx2, hx3⟩ := hx'
  unfold resolve at h2
  obtain ⟨pd, s4, h4, h2⟩ := ok_of_bind h2
  obtain ⟨ho4, ht4⟩ := Silent.forConfig (quiet_providers E m cfg) s1 _ s4 ho1 h4
  have hp4 : pd.1.map Prov.entry = x.entries ∧ Stands E none C s4.v := by
    have hs4 : SimQ E none C (fun (pd : List Prov × List Prov) b => pd.1.map Prov.entry = b)
        (forConfig (createProviders E (eval E m) cfg cfg.hierarchy >>= fun ps =>
          createProviders E (eval E m) cfg cfg.defaultHierarchy >>= fun ds => pure (ps, ds)))
        (refLevels E (ref E none m) C cfg cfg.hierarchy >>= fun es => refLevels E (ref E none m) C cfg cfg.defaultHierarchy >>= fun _ => pure es) :=
      forConfig_sim hr.toRecSimG (.bind (createProviders_sim hr.toRecSimG cfg _) (fun ps b h => .bind (createProviders_sim hr.toRecSimG cfg _) (fun _ _ _ => .pure h)))
    have hn4 : ∀ es, NIC _ (createProviders E (eval E m) cfg es) (createProviders E (eval E m) cfg es) := fun es =>
      (NI.closed E).resolving.createProviders (NI.eval E m).interpC cfg es
    obtain ⟨b, b1, b2, b3⟩ := follow hs4 ((NI.closed E).forConfig (NIC.core.bind (hn4 _) (fun _ => NIC.core.bind (hn4 _) (fun _ => NIC.core.pure _))))
      hv1 hat1 h4
    rw [hx1] at b1
    match hl2 : refLevels E (ref E none m) C cfg cfg.defaultHierarchy with
    | some (.ok ds) => rw [hl2] at b1; cases b1; exact ⟨b2, b3⟩
    | some (.panic e) => rw [hl2] at b1; cases b1
    | none => rw [hl2] at b1; cases b1
  have hic : s4.v.ic = s.v.ic := by
    have e1 : s1.v.ic = s.v.ic := KeepsIc.loadConfig E _ s _ s1 h1
    have e2 : s4.v.ic = s1.v.ic := by
      unfold forConfig at h4
      rw [if_neg (by rw [ho1]; intro h; cases h)] at h4
      unfold withCopy at h4
      split at h4 <;> cases h4
      rfl
    rw [e2, e1]
  obtain ⟨lo', s5, h5, h2⟩ := ok_of_bind h2
  cases h2
  exact ⟨m, pd.1, lo, lo', s4, s2, hr, hx2, hx3, ho4, ht4.trans ht1, hic, hp4.1, hp4.2, h5, rfl, rfl, rfl⟩

/-- With an explainer, resolving the configuration adds a node about the options of all keys, if it is told about options. -/
theorem config_tells {E : Env} (he : StatelessEnv E) {C : Ctx} (n : Nat) {ex : ExplOpts} (hx : ex.options = false → ex.onlyOptions = false) {s t : St} {c : Node}
    {us : List Node} {rc : RCfg} (ho : s.on = some ex) (ht : s.tree = .at c us) (hv : Stands E none C s.v)
    (hm : s.v.ic.mode = .top ∨ (s.v.ic.mode = .lookupOptions ∧ ex.options = true))
    {cfg : Cfg} (hcfg : newCfg E.cfg E.configPath (E.readYaml E.configPath) = .ok cfg) {d : Nat} {x : Site}
    (hsite : refSite E (ref E none d) C cfg = some (.ok x))
    (h : config E (eval E n) E.configPath [] s = some (.ok rc, t)) :
    t.on = s.on ∧ ∃ pre, t.tree = .at (.mk c.kind c.key c.event c.value c.texts (c.branches ++ pre)) us ∧ (ex.options = false → pre = []) ∧
      (ex.options = true → ∃ b d, pre = [b] ∧ OptionsTrue E (ref E none d) C x b) := by
  obtain ⟨m, ps, lo, lo', s4, s2, hr, hx2, hx3, ho4, ht4, hic, hp4, hv4, h5, to5, tt5, _⟩ := config_parts he n ho ht hv hcfg hsite h
  rw [to5, tt5]
  unfold forLookupOptions at h5
  rw [bind_ok (show view s4 = some (.ok s4.v, s4) from rfl)] at h5
  cases hop : ex.options with
  | false =>
    have hm' : s.v.ic.mode = .top := hm.elim id (fun h => by rw [hop] at h; exact nomatch h.2)
    rw [if_neg (by rw [hic, hm']; simp)] at h5
    have hq : Quiet (withNode (.new .lookup lookupOptionsKey.source) (mergeM (.deep []) ps (mergeLocations E (eval E m) lookupOptionsKey (.deep [])))) :=
      QuietRel.base.withNode _ ((QuietRel.closed E).mergeM _ _ _ _ (fun p => (QuietRel.closed E).mergeLocations (QuietRel.eval E m) _ _ p))
    obtain ⟨ho5, ht5⟩ := Silent.copy hq _ explForOptions (by simp only [explForOptions, hop, hx hop]; rfl) s4 _ s2 ho4 h5
    refine ⟨ho5.trans ho.symm, [], ?_, fun _ => rfl, fun h => nomatch h⟩
    show s2.tree = _
    rw [ht5, ht4, ht, List.append_nil]
    cases c
    rfl
  | true =>
    have run : ∀ {s6 u : St}, s6.on = some ex → s6.tree = .at c us → Stands E none C s6.v →
        withNode (.new .lookup lookupOptionsKey.source) (mergeM (.deep []) ps (mergeLocations E (eval E m) lookupOptionsKey (.deep []))) s6 =
          some (.ok lo', u) →
        u.on = some ex ∧ ∃ b, u.tree = .at (c.appendBranch b) us ∧ OptionsTrue E (ref E none m) C x b := by
      intro s6 u ho6 ht6 hv6 h5
      rw [withNode_on (by rw [ho6]; intro h; cases h) ht6] at h5
      cases hq : mergeM (.deep []) ps (mergeLocations E (eval E m) lookupOptionsKey (.deep []))
          { s6 with tree := .at (.new .lookup lookupOptionsKey.source) (c :: us) } with
      | none => rw [hq] at h5; cases h5
      | some q =>
        obtain ⟨q, u⟩ := q
        rw [hq] at h5
        cases h5
        obtain ⟨g1, c', bs, g2, g3, g4, g5, g6⟩ := levels_tell he hr (C := C) rfl lookupOptionsKey ps (.deep [])
          (s := { s6 with tree := .at (.new .lookup lookupOptionsKey.source) (c :: us) }) (c := .new .lookup lookupOptionsKey.source)
          (us := c :: us) (by show s6.on.isNone = false; rw [ho6]; rfl) rfl hv6 hq
        have g7 : c'.branches = bs := g4
        rw [hp4] at g5
        rw [hx2] at g5
        cases g5
        exact ⟨g1.trans ho6, c', by simp only [g2, Tree.pop], g3.1, g3.2, _, hx3, hx2, ps, hp4, g7 ▸ g6⟩
    rcases hm with hm | ⟨hm, _⟩
    · rw [if_neg (by rw [hic, hm]; simp)] at h5
      unfold withCopy at h5
      rw [ho4, show explForOptions (some ex) = some ex by simp only [explForOptions, hop, Bool.true_or, if_true]] at h5
      generalize hs6 : ({ s4 with v := { s4.v with ic := { s4.v.ic with mode := .lookupOptions } }, on := some ex } : St) = s6 at h5
      split at h5
      · cases h5
      · rename_i hy
        cases h5
        obtain ⟨g1, b, g2, g3⟩ := run (by rw [← hs6]) (by rw [← hs6]; exact ht4.trans ht)
          (by rw [← hs6]; exact ⟨rfl, hv4.scope, hv4.coh, (fun _ h => nomatch h), (fun h => nomatch h),
                fun h => ⟨(hv4.un h).1, (hv4.un h).2, (hv4.un h).3⟩⟩) hy
        exact ⟨ho.symm, [b], g2, (fun h => nomatch h), fun _ => ⟨b, m, rfl, g3⟩⟩
    · rw [if_pos (by rw [hic, hm])] at h5
      obtain ⟨g1, b, g2, g3⟩ := run ho4 (ht4.trans ht) hv4 h5
      exact ⟨g1.trans ho.symm, [b], g2, (fun h => nomatch h), fun _ => ⟨b, m, rfl, g3⟩⟩

/-- C91: the explanation of a lookup tells the truth. With an explainer that is told about data, after a lookup for a caller (whatever
its result, errors included) the explanation has: if it is told about options, a node about those of all keys, which says what the
levels of the hierarchy have as options, and these add up to those of the configuration; then the node of the lookup; and then what interpolating the value adds. The node of the lookup has the root of the key. It first tells where the merge option
is from, if there is one, and then has a node for each level of the hierarchy that was asked, in order. The nodes have the names of the
levels and say of each location, in order, what that location has for the key according to the reference semantics; and what the levels
say adds up, by the strategy, to what the hierarchy has for the key. -/
theorem C91_lookup (E : Env) (he : StatelessEnv E) (htop : E.top = .config) {s : St} (hs : Session E s) (hl : s.v.locked = [])
    (scope : Scope) (ex : ExplOpts) (hx : ex.onlyOptions = false) (k : Key) (hk : k.root ≠ "lookup_options".toList) (opts : Entries)
    {cfg : Cfg} (hcfg : newCfg E.cfg E.configPath (E.readYaml E.configPath) = .ok cfg) {m : Nat} {x : Site}
    (hsite : refSite E (ref E none m) ⟨scope, .call⟩ cfg = some (.ok x))
    {k0 : Key} (hk0 : newKey k.root = .ok k0) {st : Strategy}
    (hst : getStrategy (strategyNamed (refMergeOption opts (x.optionsOf k0))).1 (strategyNamed (refMergeOption opts (x.optionsOf k0))).2 = .ok st)
    {cv : Option (Nat × Option (List Value))} (hcv : extractConversion E (x.optionsOf k0) = .ok cv)
    {n : Nat} {r : Res (Option Value)} {t : St} (h : (eval E n).lookup k opts (nextInvocation s scope (some ex)) = some (r, t)) :
    ∃ root pre b post d o, t.tree = .at root [] ∧ root.branches = pre ++ b :: post ∧ (ex.options = false → pre = []) ∧
      (ex.options = true → ∃ p d, pre = [p] ∧ OptionsTrue E (ref E none d) ⟨scope, .call⟩ x p) ∧
      LookupTrue E (ref E (some x) d) ⟨scope, .value (some st)⟩ x opts k.root (x.optionsOf k0) st k0 o b := by
  cases n with
  | zero => cases h
  | succ n =>
  have hinv := fresh_inv E hs hl scope
  have hcf := (open_follows he scope n).1 ⟨scope, .call⟩ _ rfl hinv
  have hni := (NI.closed E).config (NI.eval E n) E.configPath [] (nextInvocation s scope (some ex)) (nextInvocation s scope none)
    rfl (isAt_at _ _) (isAt_at _ _)
  have hopen : refOpen E (ref E none m) ⟨scope, .call⟩ = some (.ok x) := by
    unfold refOpen
    rw [hcfg]
    exact hsite
  have h' : lookup E (eval E n) k opts (nextInvocation s scope (some ex)) = some (r, t) := h
  unfold lookup at h'
  rw [if_neg hk, htop] at h'
  have h'' : (configAt E (eval E n) E.configPath opts k.root [] >>= fun v => match v with
    | none => pure none
    | some x => forData (interpolate E (eval E n) true x >>= fun r => dig k r)) (nextInvocation s scope (some ex)) = some (r, t) := h'
  clear h h'
  rcases hni.elim with ⟨g1, g2⟩ | ⟨rc, t1, t2, g1, g2, g3, g4, g5⟩ | ⟨e, t1, t2, g1, g2, _⟩
  · unfold configAt at h''
    rw [bind_none (bind_none g1)] at h''
    cases h''
  · rw [g2] at hcf
    match hrf : refOpen E (ref E none n) ⟨scope, .call⟩, hcf with
    | none, hcf => cases hcf
    | some (.panic e), ⟨u, hcf⟩ => cases hcf
    | some (.ok x'), ⟨rc', t', e', q1, q2, q3, q4⟩ =>
      cases e'
      cases refOpen_one hrf hopen
      obtain ⟨_, hic⟩ := config_leaves he.tame n rfl (by simp [nextInvocation]) g2
      obtain ⟨rc2, hrc2, p1, p2, p3⟩ := q4.cfg
      rw [config_memo g2] at hrc2
      cases hrc2
      obtain ⟨w1, pre, w2, w3, w4⟩ := config_tells he n (fun _ => hx) (s := nextInvocation s scope (some ex)) (c := .new .root) (us := []) rfl rfl
        (⟨rfl, hinv.scope, hinv.coh, (fun _ h => nomatch h), (fun h => nomatch h), fun h => ⟨(hinv.un h).1, (hinv.un h).2, (hinv.un h).3⟩⟩) (.inl rfl) hcfg hsite g1
      unfold configAt at h''
      rw [M.bind_assoc, bind_ok g1, hk0, M.lift_ok_bind, M.bind_assoc, bind_ok (show view t1 = some (.ok t1.v, t1) from rfl)] at h''
      have hmode : t1.v.ic.mode = .top := by rw [g3, hic]; rfl
      rw [hmode] at h''
      dsimp only at h''
      have hJ : Stands E (some x) ⟨scope, .call⟩ t1.v := by
        rw [g3]
        exact ⟨rfl, q2, q3, fun y hy => by cases hy; exact ⟨q4.cfg⟩, fun _ _ => ⟨by simp, by rw [hic]; exact ⟨rfl, rfl⟩⟩, fun h => nomatch h⟩
      have hsrc : k0.source = k.root := by
        unfold newKey at hk0
        split at hk0 <;> cases hk0
        rfl
      rw [bind_def] at h''
      generalize hL : forData (withNode (.new .lookup k0.source) (do
        setMergeStrategy (Entries.getS opts "merge".toList) (rc.optionsOf k0)
        lookupAndConvert E (do
          let st ← currentStrategy
          mergeHierarchy E (eval E n) k0 rc.providers st))) t1 = L at h''
      rcases L with _ | ⟨q, t3⟩
      · cases h''
      · obtain ⟨a1, b, o, a2, _, a3⟩ := lookupNode_tells he x n p1 p2 p3 opts k0 hx w1 w2 hJ hmode hst hcv hL
        rw [hsrc] at a3
        have fin : ∃ root post, t.tree = .at root [] ∧ root.branches = pre ++ b :: post := by
          rcases q with (_ | y) | e
          · cases h''
            exact ⟨_, [], a2, rfl⟩
          · have hn : NI _ (forData (interpolate E (eval E n) true y >>= fun r => dig k r))
                (forData (interpolate E (eval E n) true y >>= fun r => dig k r)) :=
              (NI.closed E).forData ((NI.closed E).bind ((NI.closed E).interpolate (NI.eval E n) y) (fun r => NI.core.toCore.dig k r))
            obtain ⟨_, hk⟩ := kept_of_NI hn (by rw [a2]; exact isAt_at _ _) h''
            obtain ⟨c', us', hc'⟩ := tree_cases hk.right
            rw [a2, hc'] at hk
            obtain ⟨rfl, _, ⟨post, hp⟩, _⟩ := hk
            exact ⟨c', post, hc', by rw [← hp]; simp [Node.appendBranch, Node.branches, Node.new]⟩
          · cases h''
            exact ⟨_, [], a2, rfl⟩
        obtain ⟨root, post, f1, f2⟩ := fin
        exact ⟨root, pre, b, post, n, o, f1, f2, w3, w4, a3⟩
  · rw [g2] at hcf
    match hrf : refOpen E (ref E none n) ⟨scope, .call⟩, hcf with
    | none, hcf => cases hcf
    | some (.panic e), ⟨u, hcf⟩ => cases refOpen_one hrf hopen
    | some (.ok x'), ⟨rc', t', e', q1, q2, q3, q4⟩ => cases e'

/-! ### Several functions -/

/-- After a result was reported. -/
theorem reportSome_tells (v : Option Value) {s : St} {c : Node} {us : List Node} (ho : s.on.isNone = false) (ht : s.tree = .at c us) :
    ∃ c', (match v with
      | some v => do report (.result v); pure (some v)
      | none => pure none : M (Option Value)) s = some (.ok v, { s with tree := .at c' us }) ∧
      (c'.kind = c.kind ∧ c'.key = c.key) ∧ c'.branches = c.branches := by
  cases v with
  | none => exact ⟨c, by rw [← ht]; rfl, ⟨rfl, rfl⟩, rfl⟩
  | some v => exact ⟨_, bind_ok (report_on ho ht), ⟨rfl, rfl⟩, rfl⟩

section
variable {E : Env} (he : StatelessEnv E) (x : Site) (C : Ctx) (n : Nat)
include he

omit he in
/-- The configuration, while a value is looked for. -/
theorem lkConfig_run {opts : Entries} {key : Str} {k : Key} (hk : newKey key = .ok k) {st : Strategy} {s : St}
    (hm : s.v.ic.mode = .data) (hst : s.v.ic.strategy = some st) {rc : RCfg} (hrc : assoc E.configPath s.v.configs = some rc) :
    (eval E (n + 1)).lk .config opts key s = mergeHierarchy E (eval E n) k rc.providers st s := by
  show configAt E (eval E n) E.configPath opts key [] s = _
  unfold configAt
  rw [bind_ok (config_path (eval E n) [] s hrc), hk, M.lift_ok_bind, bind_ok (show view s = some (.ok s.v, s) from rfl), hm]
  dsimp only
  rw [bind_ok (show currentStrategy s = some (.ok st, s) by
    unfold currentStrategy
    rw [bind_ok (show view s = some (.ok s.v, s) from rfl), hst]
    rfl)]

/-- The configuration, and then the environment. -/
theorem mergeFns_tells {opts : Entries} {key : Str} {k : Key} (hk : newKey key = .ok k) {st : Strategy} {s : St} {c : Node} {us : List Node}
    {r : Res (Option Value)} {t : St} (ho : s.on.isNone = false) (ht : s.tree = .at c us) (hs : Stands E (some x) C s.v)
    (hm : s.v.ic.mode = .data) (hst : s.v.ic.strategy = some st)
    (h : mergeM st [.config, .env] (fun f => (eval E (n + 1)).lk f opts key) s = some (r, t)) :
    t.on = s.on ∧ ∃ c' bs o, t.tree = .at c' us ∧ (c'.kind = c.kind ∧ c'.key = c.key) ∧ c'.branches = c.branches ++ bs ∧
      ((st = .first ∧ HierarchyTrue E (ref E (some x) n) C x st k o bs) ∨
        (st ≠ .first ∧ ∃ m, bs = [m] ∧ m.kind = .merge st ∧ HierarchyTrue E (ref E (some x) n) C x st k o m.branches)) := by
  obtain ⟨rc, hrc, h1, h2, h3⟩ := (hs.at_ x rfl).cfg
  have env : ∀ u, (eval E (n + 1)).lk .env opts key u = some (.ok (envLookup E key), u) := fun _ => rfl
  by_cases hf : st = .first
  · subst hf
    have h' : (firstLoop (fun f => (eval E (n + 1)).lk f opts key) [.config, .env] >>= fun r => match r with
      | some v => do report (.result v); pure (some v)
      | none => pure none : M (Option Value)) s = some (r, t) := h
    unfold firstLoop at h'
    rw [M.bind_assoc, bind_def] at h'
    rw [lkConfig_run n hk hm hst hrc] at h'
    cases hr : mergeHierarchy E (eval E n) k rc.providers .first s with
    | none => rw [hr] at h'; cases h'
    | some q =>
      obtain ⟨o, u⟩ := q
      rw [hr] at h'
      obtain ⟨g1, c', bs, g2, g3, g4, g5⟩ := mergeHierarchy_tells he x C n k h1 .first ho ht hs hr
      have hu : u.on.isNone = false := by rw [g1, ho]
      rcases o with (_ | v) | e
      · unfold firstLoop at h'
        dsimp only at h'
        rw [M.bind_assoc, bind_ok (env u)] at h'
        obtain ⟨c2, e1, e2, e3⟩ := reportSome_tells (envLookup E key) hu g2
        cases hv : envLookup E key with
        | none => rw [hv] at h' e1; cases h'; exact ⟨g1, c', bs, _, g2, g3, g4, .inl ⟨rfl, g5⟩⟩
        | some y =>
          rw [hv] at h' e1
          have e4 : some (r, t) = some (.ok (some y), { u with tree := .at c2 us }) := h'.symm.trans e1
          cases e4
          exact ⟨g1, c2, bs, _, rfl, ⟨e2.1.trans g3.1, e2.2.trans g3.2⟩, e3.trans g4, .inl ⟨rfl, g5⟩⟩
      · obtain ⟨c2, e1, e2, e3⟩ := reportSome_tells (some v) hu g2
        have e4 : some (r, t) = some (.ok (some v), { u with tree := .at c2 us }) := h'.symm.trans e1
        cases e4
        exact ⟨g1, c2, bs, _, rfl, ⟨e2.1.trans g3.1, e2.2.trans g3.2⟩, e3.trans g4, .inl ⟨rfl, g5⟩⟩
      · cases h'
        exact ⟨g1, c', bs, _, g2, g3, g4, .inl ⟨rfl, g5⟩⟩
  · have h' : withNode (.new (.merge st)) (mergeLoop st (fun f => (eval E (n + 1)).lk f opts key) none [.config, .env] >>= fun r => match r with
      | some v => do report (.result v); pure (some v)
      | none => pure none : M (Option Value)) s = some (r, t) := by
      cases st with
      | first => exact absurd rfl hf
      | unique => exact h
      | hash => exact h
      | deep o => exact h
    rw [withNode_on (by rw [ho]; decide) ht] at h'
    generalize hs' : ({ s with tree := .at (.new (.merge st)) (c :: us) } : St) = s' at h'
    have run : ∀ y, (mergeLoop st (fun f => (eval E (n + 1)).lk f opts key) none [.config, .env] >>= fun r => match r with
      | some v => do report (.result v); pure (some v)
      | none => pure none : M (Option Value)) s' = some y → ∃ c' o, y.2.on = s.on ∧ y.2.tree = .at c' (c :: us) ∧ c'.kind = .merge st ∧
        HierarchyTrue E (ref E (some x) n) C x st k o c'.branches := by
      rintro ⟨r, t⟩ hy
      unfold mergeLoop at hy
      rw [M.bind_assoc, bind_def] at hy
      rw [lkConfig_run n hk (by rw [← hs']; exact hm) (by rw [← hs']; exact hst) (by rw [← hs']; exact hrc)] at hy
      cases hr : mergeHierarchy E (eval E n) k rc.providers st s' with
      | none => rw [hr] at hy; cases hy
      | some q =>
        obtain ⟨o, u⟩ := q
        rw [hr] at hy
        obtain ⟨g1, c', bs, g2, g3, g4, g5⟩ := mergeHierarchy_tells he x C n k h1 st (s := s') (c := .new (.merge st)) (us := c :: us)
          (by rw [← hs']; exact ho) (by rw [← hs']) (by rw [← hs']; exact hs) hr
        have g6 : c'.branches = bs := g4
        rw [← g6] at g5
        have g7 : u.on = s.on := by rw [g1, ← hs']
        have hu : u.on.isNone = false := by rw [g7, ho]
        have fin : ∀ v, (match v with
          | some v => do report (.result v); pure (some v)
          | none => pure none : M (Option Value)) u = some (r, t) → ∃ c' o, t.on = s.on ∧ t.tree = .at c' (c :: us) ∧ c'.kind = .merge st ∧
            HierarchyTrue E (ref E (some x) n) C x st k o c'.branches := by
          intro v hv
          obtain ⟨c2, e1, e2, e3⟩ := reportSome_tells v hu g2
          have e4 : some (r, t) = some (.ok v, { u with tree := .at c2 (c :: us) }) := hv.symm.trans e1
          cases e4
          exact ⟨c2, o, g7, rfl, e2.1.trans g3.1, by rw [e3]; exact g5⟩
        rcases o with (_ | v) | e
        · unfold mergeLoop at hy
          dsimp only at hy
          rw [M.bind_assoc, bind_ok (env u)] at hy
          cases hv : envLookup E key with
          | none => rw [hv] at hy; exact fin none hy
          | some y => rw [hv] at hy; exact fin (some (st.convertValue y)) hy
        · dsimp only at hy
          unfold mergeLoop at hy
          rw [M.bind_assoc, bind_ok (env u)] at hy
          cases hv : envLookup E key with
          | none => rw [hv] at hy; exact fin (some (st.convertValue v)) hy
          | some y => rw [hv] at hy; exact fin (some (st.merge (st.convertValue v) y)) hy
        · cases hy
          exact ⟨c', _, g7, g2, g3.1, g5⟩
    split at h'
    · cases h'
    · rename_i hy
      cases h'
      obtain ⟨c', o, f1, f2, f3, f4⟩ := run _ hy
      dsimp only at f1 f2
      exact ⟨f1, c.appendBranch c', [c'], o, by simp only [f2, Tree.pop], ⟨rfl, rfl⟩, rfl, .inr ⟨hf, c', rfl, f3, f4⟩⟩

/-- The node of a lookup for a caller, in several functions. -/
theorem muxNode_tells {sc : Scope} (opts : Entries) {key : Str} {k : Key} (hk : newKey key = .ok k) {ex : ExplOpts}
    (hx : ex.onlyOptions = false) {s : St} {c : Node} {us : List Node} {r : Res (Option Value)} {t : St} (ho : s.on = some ex)
    (ht : s.tree = .at c us) (hs : Stands E (some x) ⟨sc, .call⟩ s.v) (htop : E.top ≠ .config) (hm : s.v.ic.mode = .top)
    {lo : Option Entries} {st : Strategy}
    (hst : getStrategy (strategyNamed (refMergeOption opts lo)).1 (strategyNamed (refMergeOption opts lo)).2 = .ok st)
    {cv : Option (Nat × Option (List Value))} (hcv : extractConversion E lo = .ok cv)
    (h : forData (do
      let k ← lift (newKey key)
      withNode (.new .lookup k.source) (do
        setMergeStrategy (Entries.getS opts "merge".toList) lo
        lookupAndConvert E (do
          let st ← currentStrategy
          mergeM st [.config, .env] (fun f => (eval E (n + 1)).lk f opts key)))) s = some (r, t)) :
    t.on = s.on ∧ ∃ b o, t.tree = .at (c.appendBranch b) us ∧
      FirstTrue E (ref E (some x) n) ⟨sc, .value (some st)⟩ x opts k.source lo st k o b := by
  have ex' : explForData (some ex) = some ex := by simp only [explForData, hx, Bool.false_eq_true, if_false]
  unfold forData at h
  rw [bind_ok (show view s = some (.ok s.v, s) from rfl), if_neg (by rw [hm]; simp)] at h
  unfold withCopy at h
  rw [ho, ex', hk, M.lift_ok_bind] at h
  generalize hs1 : ({ s with v := { s.v with ic := { s.v.ic with mode := .data } }, on := some ex } : St) = s1 at h
  have ho1 : s1.on = some ex := by rw [← hs1]
  have ht1 : s1.tree = .at c us := by rw [← hs1]; exact ht
  rw [withNode_on (by rw [ho1]; intro h; cases h) ht1] at h
  obtain ⟨ms, hms, hmo⟩ := mergeOption_tells opts lo (s := { s1 with tree := .at (.new .lookup k.source) (c :: us) })
    (c := .new .lookup k.source) (us := c :: us) (by show s1.on.isNone = false; rw [ho1]; rfl) rfl
  have hset : setMergeStrategy (Entries.getS opts "merge".toList) lo { s1 with tree := .at (.new .lookup k.source) (c :: us) } =
      some (.ok (), { s1 with v := { s1.v with ic := { s1.v.ic with luOpts := lo, strategy := some st } },
                              tree := .at (.mk .lookup k.source .none none [] ms) (c :: us) }) := by
    unfold setMergeStrategy
    rw [bind_ok hmo, bind_ok (show setLuOpts lo _ = some (.ok (), _) from rfl), hst, M.lift_ok_bind]
    rfl
  generalize hs2 : ({ s1 with v := { s1.v with ic := { s1.v.ic with luOpts := lo, strategy := some st } },
                              tree := .at (.mk .lookup k.source .none none [] ms) (c :: us) } : St) = s2 at hset
  have run : ∀ y : M (Option Value), (setMergeStrategy (Entries.getS opts "merge".toList) lo >>= fun _ => y)
      { s1 with tree := .at (.new .lookup k.source) (c :: us) } = y s2 := fun y => bind_ok hset
  rw [run] at h
  have hJ : ∀ b, Stands E (some x) ⟨sc, .value (some st)⟩ { s2.v with ic := { s2.v.ic with redacted := b } } := by
    intro b
    rw [← hs2, ← hs1]
    exact ⟨rfl, hs.scope, hs.coh, fun y hy => ⟨(hs.at_ y hy).cfg⟩, fun _ h => absurd h htop, fun h => nomatch h⟩
  have inner : ∀ (b : Bool) o u, (currentStrategy >>= fun st => mergeM st [.config, .env] (fun f => (eval E (n + 1)).lk f opts key))
      { s2 with v := { s2.v with ic := { s2.v.ic with redacted := b } } } = some (o, u) →
      ∃ c' bs o, u.tree = .at c' (c :: us) ∧ (c'.kind = .lookup ∧ c'.key = k.source) ∧ c'.branches = ms ++ bs ∧
        ((st = .first ∧ HierarchyTrue E (ref E (some x) n) ⟨sc, .value (some st)⟩ x st k o bs) ∨
          (st ≠ .first ∧ ∃ m, bs = [m] ∧ m.kind = .merge st ∧ HierarchyTrue E (ref E (some x) n) ⟨sc, .value (some st)⟩ x st k o m.branches)) := by
    intro b o u hb
    rw [bind_ok (show currentStrategy { s2 with v := { s2.v with ic := { s2.v.ic with redacted := b } } } =
        some (.ok st, { s2 with v := { s2.v with ic := { s2.v.ic with redacted := b } } }) by rw [← hs2]; rfl)] at hb
    exact (mergeFns_tells he x ⟨sc, .value (some st)⟩ n hk (c := .mk .lookup k.source .none none [] ms) (us := c :: us)
      (by rw [← hs2]; show s1.on.isNone = false; rw [ho1]; rfl) (by rw [← hs2]) (hJ b) (by rw [← hs2, ← hs1]) (by rw [← hs2]) hb).2
  have fetch : ∀ o u, maybeRedacted E cv (currentStrategy >>= fun st => mergeM st [.config, .env] (fun f => (eval E (n + 1)).lk f opts key)) s2 =
      some (o, u) →
      ∃ c' bs o, u.tree = .at c' (c :: us) ∧ (c'.kind = .lookup ∧ c'.key = k.source) ∧ c'.branches = ms ++ bs ∧
        ((st = .first ∧ HierarchyTrue E (ref E (some x) n) ⟨sc, .value (some st)⟩ x st k o bs) ∨
          (st ≠ .first ∧ ∃ m, bs = [m] ∧ m.kind = .merge st ∧ HierarchyTrue E (ref E (some x) n) ⟨sc, .value (some st)⟩ x st k o m.branches)) := by
    intro o u hf
    unfold maybeRedacted at hf
    rcases cv with _ | ⟨ty, as⟩
    · exact inner s2.v.ic.redacted o u hf
    · dsimp only at hf
      split at hf
      · unfold doRedacted at hf
        split at hf
        · exact inner s2.v.ic.redacted o u hf
        · split at hf
          · cases hf
          · rename_i hr
            cases hf
            exact (inner true _ _ hr :)
      · exact inner s2.v.ic.redacted o u hf
  have all : ∀ q u, lookupAndConvert E (currentStrategy >>= fun st => mergeM st [.config, .env] (fun f => (eval E (n + 1)).lk f opts key)) s2 =
      some (q, u) → ∃ c' o, u.tree = .at c' (c :: us) ∧ FirstTrue E (ref E (some x) n) ⟨sc, .value (some st)⟩ x opts k.source lo st k o c' := by
    intro q u hq
    unfold lookupAndConvert at hq
    rw [bind_ok (show view s2 = some (.ok s2.v, s2) from rfl), show extractConversion E s2.v.ic.luOpts = .ok cv by rw [← hs2]; exact hcv,
      M.lift_ok_bind, bind_def] at hq
    cases hr : maybeRedacted E cv (currentStrategy >>= fun st => mergeM st [.config, .env] (fun f => (eval E (n + 1)).lk f opts key)) s2 with
    | none => rw [hr] at hq; cases hq
    | some w =>
      obtain ⟨a, v⟩ := w
      obtain ⟨c', bs, o, g1, g2, g3, g4⟩ := fetch a v hr
      rw [hr] at hq
      have : u = v := by
        cases a with
        | panic e => cases hq; rfl
        | ok a =>
          dsimp only at hq
          cases hv : convert E a cv with
          | ok y => rw [hv] at hq; cases hq; rfl
          | panic e => rw [hv] at hq; cases hq; rfl
      subst this
      exact ⟨c', o, g1, g2.1, g2.2, ms, bs, g3, hms, g4⟩
  split at h
  · cases h
  · rename_i hy
    split at hy
    · cases hy
    · rename_i hz
      cases hy
      cases h
      obtain ⟨c', o, g1, g2⟩ := all _ _ hz
      exact ⟨ho.symm, c', o, by simp only [g1, Tree.pop], g2⟩

end

/-- The options, told of by an explainer that is told about options. -/
theorem optionFns_tells {E : Env} (he : StatelessEnv E) {C : Ctx} (n : Nat) {ex : ExplOpts} (hx : ex.options = false → ex.onlyOptions = false) (hop : ex.options = true)
    (opts : Entries) (key : Str) {s t : St} {c : Node} {us : List Node} {lo : Option Value} (ho : s.on = some ex) (ht : s.tree = .at c us)
    (hv : Stands E none C s.v) (hm : s.v.ic.mode = .top) {cfg : Cfg} (hcfg : newCfg E.cfg E.configPath (E.readYaml E.configPath) = .ok cfg)
    {d : Nat} {x : Site} (hsite : refSite E (ref E none d) C cfg = some (.ok x))
    (h : forLookupOptions (mergeM (.deep []) [.config, .env] (fun f => (eval E (n + 1)).lk f opts key)) s = some (.ok lo, t)) :
    ∃ b p d, t.tree = .at (c.appendBranch b) us ∧ b.kind = .merge (.deep []) ∧ b.branches = [p] ∧ OptionsTrue E (ref E none d) C x p := by
  unfold forLookupOptions at h
  rw [bind_ok (show view s = some (.ok s.v, s) from rfl), if_neg (by rw [hm]; simp)] at h
  unfold withCopy at h
  rw [ho, show explForOptions (some ex) = some ex by simp only [explForOptions, hop, Bool.true_or, if_true]] at h
  generalize hs1 : ({ s with v := { s.v with ic := { s.v.ic with mode := .lookupOptions } }, on := some ex } : St) = s1 at h
  have ho1 : s1.on = some ex := by rw [← hs1]
  have ht1 : s1.tree = .at c us := by rw [← hs1]; exact ht
  have e : mergeM (.deep []) [.config, .env] (fun f => (eval E (n + 1)).lk f opts key) s1 =
    withNode (.new (.merge (.deep []))) (mergeLoop (.deep []) (fun f => (eval E (n + 1)).lk f opts key) none [.config, .env] >>= fun r => match r with
      | some v => do report (.result v); pure (some v)
      | none => pure none : M (Option Value)) s1 := rfl
  rw [e, withNode_on (by rw [ho1]; intro h; cases h) ht1] at h
  generalize hs2 : ({ s1 with tree := .at (.new (.merge (.deep []))) (c :: us) } : St) = s2 at h
  have ho2 : s2.on = some ex := by rw [← hs2]; exact ho1
  have ht2 : s2.tree = .at (.new (.merge (.deep []))) (c :: us) := by rw [← hs2]
  have hm2 : s2.v.ic.mode = .lookupOptions := by rw [← hs2, ← hs1]
  have hv2 : Stands E none C s2.v := by
    rw [← hs2, ← hs1]
    exact ⟨rfl, hv.scope, hv.coh, (fun _ h => nomatch h), (fun h => nomatch h), fun h => ⟨(hv.un h).1, (hv.un h).2, (hv.un h).3⟩⟩
  have run : ∀ u, (mergeLoop (.deep []) (fun f => (eval E (n + 1)).lk f opts key) none [.config, .env] >>= fun r => match r with
      | some v => do report (.result v); pure (some v)
      | none => pure none : M (Option Value)) s2 = some (.ok lo, u) →
      ∃ b p d, u.tree = .at b (c :: us) ∧ b.kind = .merge (.deep []) ∧ b.branches = [p] ∧ OptionsTrue E (ref E none d) C x p := by
    intro u hu
    unfold mergeLoop at hu
    rw [M.bind_assoc] at hu
    obtain ⟨v1, u1, hu1, hu⟩ := ok_of_bind hu
    have hu1' : configAt E (eval E n) E.configPath opts key [] s2 = some (.ok v1, u1) := hu1
    unfold configAt at hu1'
    obtain ⟨rc, u2, hc, hu2⟩ := ok_of_bind hu1'
    obtain ⟨g1, pre, g2, _, g3⟩ := config_tells he n hx ho2 ht2 hv2 (.inr ⟨hm2, hop⟩) hcfg hsite hc
    obtain ⟨p, d', rfl, g4⟩ := g3 hop
    have hic : u2.v.ic.mode = .lookupOptions := by
      rcases ((NI.closed E).config (NI.eval E n) E.configPath [] s2 ⟨s2.v, none, .at (.new .root) []⟩ rfl (by rw [ht2]; exact isAt_at _ _)
        (isAt_at _ _)).elim with ⟨a1, _⟩ | ⟨_, _, t2, a1, a2, a3, _⟩ | ⟨_, _, _, a1, _⟩
      · rw [hc] at a1; cases a1
      · rw [hc] at a1
        cases a1
        obtain ⟨_, hic⟩ := config_leaves he.tame n rfl (by rw [hm2]; simp) a2
        rw [a3, hic]
        exact hm2
      · rw [hc] at a1; cases a1
    obtain ⟨kk, u3, hk3, hu3⟩ := ok_of_bind hu2
    have : u3 = u2 := by
      cases hq : newKey key with
      | ok y => rw [hq] at hk3; cases hk3; rfl
      | panic e => rw [hq] at hk3; cases hk3
    subst this
    rw [bind_ok (show view u3 = some (.ok u3.v, u3) from rfl), hic] at hu3
    dsimp only at hu3
    cases hu3
    have env : ∀ u, (eval E (n + 1)).lk .env opts key u = some (.ok (envLookup E key), u) := fun _ => rfl
    have hu1n : u1.on.isNone = false := by rw [g1, ho2]; rfl
    have fin : ∀ v, (match v with
      | some v => do report (.result v); pure (some v)
      | none => pure none : M (Option Value)) u1 = some (.ok lo, u) →
        ∃ b p d, u.tree = .at b (c :: us) ∧ b.kind = .merge (.deep []) ∧ b.branches = [p] ∧ OptionsTrue E (ref E none d) C x p := by
      intro v hv
      obtain ⟨c2, e1, e2, e3⟩ := reportSome_tells v hu1n g2
      have e4 : some (Res.ok lo, u) = some (Res.ok v, { u1 with tree := .at c2 (c :: us) }) := hv.symm.trans e1
      cases e4
      exact ⟨c2, p, d', rfl, e2.1, e3, g4⟩
    cases hco : (rc.optionsOf kk).map Value.map with
    | none =>
      rw [hco] at hu
      dsimp only at hu
      unfold mergeLoop at hu
      rw [M.bind_assoc, bind_ok (env u1)] at hu
      cases hv : envLookup E key with
      | none => rw [hv] at hu; exact fin none hu
      | some y => rw [hv] at hu; exact fin (some _) hu
    | some w =>
      rw [hco] at hu
      dsimp only at hu
      unfold mergeLoop at hu
      rw [M.bind_assoc, bind_ok (env u1)] at hu
      cases hv : envLookup E key with
      | none => rw [hv] at hu; exact fin (some _) hu
      | some y => rw [hv] at hu; exact fin (some _) hu
  split at h
  · cases h
  · rename_i hy
    split at hy
    · cases hy
    · rename_i hz
      cases hy
      cases h
      obtain ⟨b, p, d', f1, f2, f3, f4⟩ := run _ hz
      exact ⟨b, p, d', by simp only [f1, Tree.pop], f2, f3, f4⟩

/-- What the configuration and the environment have as options of a key, merged. -/
def Spec.optionsOfBoth (E : Env) (x : Site) (k : Key) : Ans (Option Value) :=
  refMerge (.deep []) [pure ((x.optionsOf k).map .map), pure (envLookup E k.source)]

/-- What asking for the options does, in sessions as the command line and the server make them: afterwards, the configuration is resolved. -/
theorem command_opens (E : Env) (he : StatelessEnv E) (htop : E.top = .mux) (hfs : E.muxFns = some [.config, .env]) {s : St}
    (hs : Session E s) (hl : s.v.locked = []) (scope : Scope) (ex : ExplOpts) (hx : ex.options = false → ex.onlyOptions = false) (k : Key)
    (hk : k.root ≠ "lookup_options".toList) (opts : Entries)
    {cfg : Cfg} (hcfg : newCfg E.cfg E.configPath (E.readYaml E.configPath) = .ok cfg) {m : Nat} {x : Site}
    (hsite : refSite E (ref E none m) ⟨scope, .call⟩ cfg = some (.ok x))
    {k0 : Key} (hk0 : newKey k.root = .ok k0) {lo : Option Value} (hlo : optionsOfBoth E x k0 = some (.ok lo))
    {n : Nat} {r : Res (Option Value)} {t : St} (h : (eval E n).lookup k opts (nextInvocation s scope (some ex)) = some (r, t)) :
    ∃ t1, forLookupOptions (mergeM (.deep []) [.config, .env] (fun f => (eval E (n + 1)).lk f opts k.root))
        (nextInvocation s scope (some ex)) = some (.ok lo, t1) ∧ Stands E (some x) ⟨scope, .call⟩ t1.v ∧ t1.v.ic.mode = .top ∧
      (t1.on = some ex ∧ ∃ c1, t1.tree = .at c1 [] ∧ (ex.options = false → c1.branches = []) ∧
        (ex.options = true → ∃ m p d, c1.branches = [m] ∧ m.kind = .merge (.deep []) ∧ m.branches = [p] ∧
          OptionsTrue E (ref E none d) ⟨scope, .call⟩ x p)) ∧
      (forData (do
        let k1 ← lift (newKey k.root)
        withNode (.new .lookup k1.source) (do
          setMergeStrategy (Entries.getS opts "merge".toList) (asMap lo)
          lookupAndConvert E (do
            let st ← currentStrategy
            mergeM st [.config, .env] (fun f => (eval E (n + 1)).lk f opts k.root)))) >>= fun v => match v with
        | none => pure none
        | some x => forData (interpolate E (eval E (n + 1)) true x >>= fun r => dig k r)) t1 = some (r, t) := by
  have hsrc : k0.source = k.root := by
    unfold newKey at hk0
    split at hk0 <;> cases hk0
    rfl
  have hne : E.top ≠ .config := by rw [htop]; simp
  replace h := (eval_le E (Nat.le_add_right n 2)).lookup k opts _ _ h
  have hinv := fresh_inv E hs hl scope
  have hc0 := opening_inv hinv
  have hcf := (open_follows he scope n).1 ⟨scope, .call⟩ _ rfl hc0
  have hopen : refOpen E (ref E none m) ⟨scope, .call⟩ = some (.ok x) := by
    unfold refOpen
    rw [hcfg]
    exact hsite
  have hc0' : opening E (nextInvocation s scope none) = (nextInvocation s scope none).withIc { (nextInvocation s scope none).v.ic with mode := .lookupOptions } := by
    unfold opening
    rw [htop]
  have op : Opens E n (opening E (nextInvocation s scope none)) (nextInvocation s scope none)
      (forLookupOptions (mergeM (.deep []) [.config, .env] (fun f => (eval E (n + 1)).lk f opts k.root))) :=
    Opens.forLookupOptions he.tame (by rw [hc0']; rfl) (by rw [hc0']; simp [St.withIc]) hc0' rfl
      (Opens.mergeM he.tame (by rw [hc0']; rfl) (by rw [hc0']; simp [St.withIc]) [.env] opts k.root)
  have hni := (NI.closed E).forLookupOptions ((NI.closed E).mergeM (.deep []) [LkFn.config, .env] (fun f => (eval E (n + 1)).lk f opts k.root) _
    (fun f => (NI.eval E (n + 1)).lk f opts k.root)) (nextInvocation s scope (some ex)) (nextInvocation s scope none)
    rfl (isAt_at _ _) (isAt_at _ _)
  have h' : lookup E (eval E (n + 1)) k opts (nextInvocation s scope (some ex)) = some (r, t) := h
  unfold lookup at h'
  rw [if_neg hk, htop] at h'
  have h'' : (muxLookup E (eval E (n + 1)) opts k.root >>= fun v => match v with
    | none => pure none
    | some x => forData (interpolate E (eval E (n + 1)) true x >>= fun r => dig k r)) (nextInvocation s scope (some ex)) = some (r, t) := h'
  clear h h'
  unfold muxLookup at h''
  rw [hfs] at h''
  dsimp only at h''
  rw [M.bind_assoc] at h''
  -- the options
  have hopt : refMerge (.deep []) ([LkFn.config, .env].map (fun f => (ref E (some x) (n + 1)).call ⟨scope, .options⟩ f opts k.root)) = some (.ok lo) := by
    rw [← hlo]
    unfold optionsOfBoth
    rw [hsrc]
    show refMerge (.deep []) [refConfig E (some x) (ref E (some x) n) ⟨scope, .options⟩ opts k.root, pure (envLookup E k.root)] = _
    unfold refConfig
    dsimp only
    rw [hk0]
    rfl
  have found : ∃ t1, forLookupOptions (mergeM (.deep []) [.config, .env] (fun f => (eval E (n + 1)).lk f opts k.root))
      (nextInvocation s scope (some ex)) = some (.ok lo, t1) ∧ Stands E (some x) ⟨scope, .call⟩ t1.v := by
    match hrf : refOpen E (ref E none n) ⟨scope, .call⟩, hcf with
    | none, hcf =>
      rcases hni.elim with ⟨g1, g2⟩ | ⟨_, _, _, g1, g2, _⟩ | ⟨_, _, _, g1, g2, _⟩
      · rw [bind_none g1] at h''; cases h''
      · rw [op.1 hcf] at g2; cases g2
      · rw [op.1 hcf] at g2; cases g2
    | some (.panic e), ⟨u, hcf⟩ => cases refOpen_one hrf hopen
    | some (.ok x'), ⟨rc', t', e', q1, q2, q3, q4⟩ =>
      cases refOpen_one hrf hopen
      have hi : Inv E (some x) ⟨scope, .call⟩ (t'.withIc (nextInvocation s scope none).v.ic) :=
        ⟨q1, rfl, q3, fun y hy => by cases hy; exact ⟨q4.cfg⟩, fun _ h => absurd h hne, fun h => nomatch h⟩
      have sim := forOptions_mux (E := E) (site := some x) (C := ⟨scope, .call⟩) hne (Q := Eq)
        (m := mergeM (.deep []) [.config, .env] (fun f => (eval E (n + 1)).lk f opts k.root))
        (fun s hs hi => mergeFns_at (RecSim.resolved he x (n + 1)) he.keyFn (C := ⟨scope, .call⟩) trivial (fun h => nomatch h) hne (.deep []) [.env]
          (by simp) (by simp [Stateless]) .options (by simp) opts k.root hs hi) _ hi
      rw [← op.2.2 rc' t' e'] at sim
      have sim' : Follows E (some x) ⟨scope, .call⟩ Eq (forLookupOptions (mergeM (.deep []) [.config, .env] (fun f => (eval E (n + 1)).lk f opts k.root))
        (nextInvocation s scope none)) (some (.ok lo)) := by rw [← hopt]; exact sim
      obtain ⟨lo', t2, f1, rfl, f2⟩ := sim'
      rcases hni.elim with ⟨g1, g2⟩ | ⟨lo2, t1, t2', g1, g2, g3, _⟩ | ⟨_, _, _, g1, g2, _⟩
      · rw [f1] at g2; cases g2
      · rw [f1] at g2
        cases g2
        refine ⟨t1, g1, ?_⟩
        rw [g3]
        exact ⟨rfl, f2.scope, f2.coh, fun y hy => ⟨(f2.at_ y hy).cfg⟩, fun _ h => absurd h hne, fun h => nomatch h⟩
      · rw [f1] at g2; cases g2
  obtain ⟨t1, g1, hJ⟩ := found
  have hmode : t1.v.ic.mode = .top := by
    have := g1
    unfold forLookupOptions at this
    rw [bind_ok (show view (nextInvocation s scope (some ex)) = some (.ok _, _) from rfl), if_neg (by simp [nextInvocation])] at this
    unfold withCopy at this
    split at this <;> cases this
    rfl
  have htree : t1.on = some ex ∧ ∃ c1, t1.tree = .at c1 [] ∧ (ex.options = false → c1.branches = []) ∧
      (ex.options = true → ∃ m p d, c1.branches = [m] ∧ m.kind = .merge (.deep []) ∧ m.branches = [p] ∧
        OptionsTrue E (ref E none d) ⟨scope, .call⟩ x p) := by
    obtain ⟨hk1, hk2⟩ : Kept (nextInvocation s scope (some ex)) t1 := by
      rcases hni.elim with ⟨a1, _⟩ | ⟨_, _, _, a1, _, _, a2, _⟩ | ⟨_, _, _, a1, _, _⟩
      · rw [g1] at a1; cases a1
      · rw [g1] at a1; cases a1; exact a2
      · rw [g1] at a1; cases a1
    obtain ⟨c1, us1, hc1⟩ := tree_cases hk2.right
    rw [hc1] at hk2
    obtain ⟨rfl, _⟩ : us1 = [] ∧ True := by
      obtain ⟨a1, _⟩ := hk2
      exact ⟨a1, trivial⟩
    refine ⟨hk1, c1, hc1, fun hop => ?_, fun hop => ?_⟩
    rotate_left
    · obtain ⟨b, p, d, f1, f2, f3, f4⟩ := optionFns_tells he n hx hop opts k.root (s := nextInvocation s scope (some ex)) (c := .new .root) (us := []) rfl rfl
        (⟨rfl, hinv.scope, hinv.coh, (fun _ h => nomatch h), (fun h => nomatch h), fun h => ⟨(hinv.un h).1, (hinv.un h).2, (hinv.un h).3⟩⟩) rfl hcfg hsite g1
      rw [hc1] at f1
      cases f1
      exact ⟨b, p, d, rfl, f2, f3, f4⟩
    have hq : Quiet (mergeM (.deep []) [LkFn.config, .env] (fun f => (eval E (n + 1)).lk f opts k.root)) :=
      (QuietRel.closed E).mergeM (.deep []) [LkFn.config, .env] _ (fun f => (eval E (n + 1)).lk f opts k.root)
        (fun f => (QuietRel.eval E (n + 1)).lk f opts k.root)
    have g1' := g1
    unfold forLookupOptions at g1'
    rw [bind_ok (show view (nextInvocation s scope (some ex)) = some (.ok _, _) from rfl), if_neg (by simp [nextInvocation])] at g1'
    have := (Silent.copy hq _ explForOptions (by simp only [explForOptions, hop, hx hop]; rfl) _ _ _ rfl g1').2
    rw [hc1] at this
    cases this
    rfl
  rw [bind_ok g1] at h''
  exact ⟨t1, g1, hJ, hmode, htree, h''⟩

/-- C91 for sessions as the command line and the server make them, where the environment is asked after the configuration. With
strategies other than `first`, the nodes of the levels are below one for the merge of what the configuration and the environment have.
The options of all keys are told of, below a node for the merge of those of the configuration and of the environment, if the explainer is
told about options. Nothing is told about the environment (see the disagreements in DESIGN.md). -/
theorem C91_command (E : Env) (he : StatelessEnv E) (htop : E.top = .mux) (hfs : E.muxFns = some [.config, .env]) {s : St}
    (hs : Session E s) (hl : s.v.locked = []) (scope : Scope) (ex : ExplOpts) (hx : ex.onlyOptions = false) (k : Key)
    (hk : k.root ≠ "lookup_options".toList) (opts : Entries)
    {cfg : Cfg} (hcfg : newCfg E.cfg E.configPath (E.readYaml E.configPath) = .ok cfg) {m : Nat} {x : Site}
    (hsite : refSite E (ref E none m) ⟨scope, .call⟩ cfg = some (.ok x))
    {k0 : Key} (hk0 : newKey k.root = .ok k0) {lo : Option Value} (hlo : optionsOfBoth E x k0 = some (.ok lo)) {st : Strategy}
    (hst : getStrategy (strategyNamed (refMergeOption opts (asMap lo))).1 (strategyNamed (refMergeOption opts (asMap lo))).2 = .ok st)
    {cv : Option (Nat × Option (List Value))} (hcv : extractConversion E (asMap lo) = .ok cv)
    {n : Nat} {r : Res (Option Value)} {t : St} (h : (eval E n).lookup k opts (nextInvocation s scope (some ex)) = some (r, t)) :
    ∃ root pre b post d o, t.tree = .at root [] ∧ root.branches = pre ++ b :: post ∧ (ex.options = false → pre = []) ∧
      (ex.options = true → ∃ m p d, pre = [m] ∧ m.kind = .merge (.deep []) ∧ m.branches = [p] ∧ OptionsTrue E (ref E none d) ⟨scope, .call⟩ x p) ∧
      FirstTrue E (ref E (some x) d) ⟨scope, .value (some st)⟩ x opts k.root (asMap lo) st k0 o b := by
  have hsrc : k0.source = k.root := by
    unfold newKey at hk0
    split at hk0 <;> cases hk0
    rfl
  have hne : E.top ≠ .config := by rw [htop]; simp
  obtain ⟨t1, g1, hJ, hmode, htree, h''⟩ := command_opens E he htop hfs hs hl scope ex (fun _ => hx) k hk opts hcfg hsite hk0 hlo h
  obtain ⟨ho1, c1, ht1, hpre, hpre2⟩ := htree
  rw [bind_def] at h''
  generalize hL : forData (do
    let k1 ← lift (newKey k.root)
    withNode (.new .lookup k1.source) (do
      setMergeStrategy (Entries.getS opts "merge".toList) (asMap lo)
      lookupAndConvert E (do
        let st ← currentStrategy
        mergeM st [.config, .env] (fun f => (eval E (n + 1)).lk f opts k.root)))) t1 = L at h''
  rcases L with _ | ⟨q, t3⟩
  · cases h''
  · obtain ⟨a1, b, o, a2, a3⟩ := muxNode_tells he x n opts hk0 hx ho1 ht1 hJ hne hmode hst hcv hL
    rw [hsrc] at a3
    have fin : ∃ root post, t.tree = .at root [] ∧ root.branches = c1.branches ++ b :: post := by
      rcases q with (_ | y) | e
      · cases h''
        exact ⟨_, [], a2, by cases c1; rfl⟩
      · have hn : NI _ (forData (interpolate E (eval E (n + 1)) true y >>= fun r => dig k r))
            (forData (interpolate E (eval E (n + 1)) true y >>= fun r => dig k r)) :=
          (NI.closed E).forData ((NI.closed E).bind ((NI.closed E).interpolate (NI.eval E (n + 1)) y) (fun r => NI.core.toCore.dig k r))
        obtain ⟨_, hk⟩ := kept_of_NI hn (by rw [a2]; exact isAt_at _ _) h''
        obtain ⟨c', us', hc'⟩ := tree_cases hk.right
        rw [a2, hc'] at hk
        obtain ⟨rfl, _, ⟨post, hp⟩, _⟩ := hk
        exact ⟨c', post, hc', by rw [← hp]; cases c1; simp [Node.appendBranch, Node.branches]⟩
      · cases h''
        exact ⟨_, [], a2, by cases c1; rfl⟩
    obtain ⟨root, post, f1, f2⟩ := fin
    exact ⟨root, c1.branches, b, post, n, o, f1, f2, hpre, hpre2, a3⟩

/-! Not vacuous: the hypotheses hold in a session with the configuration alone and in one with the environment too, for a key that is
merged and whose value looks up another one; the explanation has the nodes meant, and those of the other lookup. -/

/-- What `C91_lookup` and `C91_command` assume of a session and a key, with the strategy. -/
def truthful (E : Env) (both : Bool) (scope : Scope) (k : Key) (opts : Entries) (m : Nat) : Option Strategy :=
  match newCfg E.cfg E.configPath (E.readYaml E.configPath), newKey k.root with
  | .ok cfg, .ok k0 =>
    match refSite E (ref E none m) ⟨scope, .call⟩ cfg with
    | some (.ok x) =>
      match (if both then optionsOfBoth E x k0 else pure ((x.optionsOf k0).map .map)) with
      | some (.ok lo) =>
        match getStrategy (strategyNamed (refMergeOption opts (asMap lo))).1 (strategyNamed (refMergeOption opts (asMap lo))).2,
            extractConversion E (asMap lo) with
        | .ok st, .ok _ => some st
        | _, _ => none
      | _ => none
    | _ => none
  | _, _ => none

/-- The sketch of the explanation of a lookup. -/
def lookupSketch (E : Env) (n : Nat) (k : Key) (ex : ExplOpts) : Option (List (Nat × Nat × Event)) :=
  ((eval E n).lookup k [] (newInvocation (.map []) (some ex))).map
    (fun r => match r.2.tree with | .at c _ => c.branches.flatMap (sketch 7) | .off _ => [])

example : truthful storiedWorld false (.map []) ⟨"m".toList, [.name "m".toList]⟩ [] 3 matches some .hash := by decide +kernel
example : truthful commandWorld true (.map []) ⟨"m".toList, [.name "m".toList]⟩ [] 3 matches some .hash := by decide +kernel

example : lookupSketch storiedWorld 6 ⟨"m".toList, [.name "m".toList]⟩ ⟨false, false⟩ = some [
    (6, 0, .none), (5, 0, .none), (5, 1, .result),
      (4, 2, .none), (3, 3, .found), (2, 0, .none), (1, 1, .result), (0, 2, .none), (0, 2, .none),
      (4, 2, .none), (3, 3, .found)] := by decide +kernel
example : lookupSketch storiedWorld 6 ⟨"n".toList, [.name "n".toList]⟩ ⟨true, false⟩ = some [
    (6, 0, .none), (5, 1, .result), (4, 2, .none), (3, 3, .found), (4, 2, .none), (3, 3, .notFound),
    (6, 0, .result), (5, 2, .none), (4, 3, .notFound), (5, 2, .none), (4, 3, .found)] := by decide +kernel
example : lookupSketch commandWorld 8 ⟨"m".toList, [.name "m".toList]⟩ ⟨false, false⟩ = some [
    (6, 0, .none), (5, 0, .none), (5, 1, .result), (4, 1, .result),
      (3, 2, .none), (2, 3, .found), (1, 0, .none), (0, 0, .result),
      (3, 2, .none), (2, 3, .found)] := by decide +kernel

end Hiera
