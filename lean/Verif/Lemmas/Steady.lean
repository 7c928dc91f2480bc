/- Once the configuration is resolved, lookups change nothing but memories; and resolving it leaves the invocation as it
is. -/
import Verif.Lemmas.Shape
import Verif.Lemmas.Fuel

set_option autoImplicit false

namespace Hiera

open Spec

/-! ### Changes of an `Ic` -/

/-- Reflexive and transitive. -/
structure PreIc (P : Ic → Ic → Prop) : Prop where
  refl : ∀ a, P a a
  trans : ∀ {a b c}, P a b → P b c → P a c

/-- The mode and the scope are kept. -/
def WeakIc (a b : Ic) : Prop := b.mode = a.mode ∧ b.scope = a.scope

/-- Everything is kept, except that in data mode only the mode and the scope are. -/
def StrongIc (a b : Ic) : Prop := WeakIc a b ∧ (a.mode ≠ .data → b = a)

theorem WeakIc.pre : PreIc WeakIc := ⟨fun _ => ⟨rfl, rfl⟩, fun h g => ⟨g.1.trans h.1, g.2.trans h.2⟩⟩

theorem StrongIc.pre : PreIc StrongIc where
  refl := fun _ => ⟨⟨rfl, rfl⟩, fun _ => rfl⟩
  trans := fun h g => ⟨WeakIc.pre.trans h.1 g.1, fun hd => by
    have e := h.2 hd
    rw [g.2 (by rw [e]; exact hd), e]⟩

/-! ### With a resolved configuration -/

/-- There is no explainer, and the configuration is resolved. -/
def Resolved (E : Env) (s : St) : Prop := s.on = none ∧ (assoc E.configPath s.v.configs).isSome = true

/-- Only memories have changed, and the `Ic`. -/
structure Unmoved (s t : St) : Prop where
  on : t.on = s.on
  tree : t.tree = s.tree
  configs : t.v.configs = s.v.configs
  nextId : t.v.nextId = s.v.nextId
  cache : t.v.cache = s.v.cache
  parsed : t.v.parsed = s.v.parsed
  locked : t.v.locked = s.v.locked

theorem Unmoved.refl (s : St) : Unmoved s s := ⟨rfl, rfl, rfl, rfl, rfl, rfl, rfl⟩
theorem Unmoved.trans {s t u : St} (h : Unmoved s t) (g : Unmoved t u) : Unmoved s u :=
  ⟨g.on.trans h.on, g.tree.trans h.tree, g.configs.trans h.configs, g.nextId.trans h.nextId, g.cache.trans h.cache,
    g.parsed.trans h.parsed, g.locked.trans h.locked⟩

theorem Unmoved.ready {E : Env} {s t : St} (h : Unmoved s t) (hs : Resolved E s) : Resolved E t :=
  ⟨h.on.trans hs.1, by rw [h.configs]; exact hs.2⟩

/-- Whatever the outcome, only memories change, and the `Ic` by `P`. -/
def Stays (E : Env) (P : Ic → Ic → Prop) : Rel := fun _ m _ =>
  ∀ s r t, Resolved E s → m s = some (r, t) → Unmoved s t ∧ P s.v.ic t.v.ic

section
variable {E : Env} {P : Ic → Ic → Prop} (hp : PreIc P)
include hp

theorem Stays.core : CoreV (Stays E P) where
  pure := by
    intro α a s r t hs h
    cases h
    exact ⟨.refl _, hp.refl _⟩
  bind := by
    intro α β m m' f f' hm hf s r t hs h
    rw [bind_def] at h
    cases hms : m s with
    | none => rw [hms] at h; cases h
    | some x =>
      obtain ⟨a | e, u⟩ := x
      · rw [hms] at h
        obtain ⟨h1, h2⟩ := hm s _ _ hs hms
        obtain ⟨h3, h4⟩ := hf a u r t (h1.ready hs) h
        exact ⟨h1.trans h3, hp.trans h2 h4⟩
      · rw [hms] at h
        cases h
        exact hm s _ _ hs hms
  panic := by
    intro α e s r t hs h
    cases h
    exact ⟨.refl _, hp.refl _⟩
  view := by
    intro s r t hs h
    cases h
    exact ⟨.refl _, hp.refl _⟩
  withNode := by
    intro α m m' n hm s r t hs h
    unfold Hiera.withNode at h
    rw [if_pos (by rw [hs.1]; rfl)] at h
    exact hm s r t hs h
  report := by
    intro f _ s r t hs h
    unfold Hiera.report at h
    rw [if_pos (by rw [hs.1]; rfl)] at h
    cases h
    exact ⟨.refl _, hp.refl _⟩

theorem Stays.withCopy {α : Type} {P' : Ic → Ic → Prop} {m m' : M α} (f : Ic → Ic) (g : Option ExplOpts → Option ExplOpts) (hg : g none = none)
    (hm : Stays E P' α m m') : Stays E P α (withCopy f g m) (withCopy f g m') := by
  intro s r t hs h
  unfold Hiera.withCopy at h
  cases hms : m { s with v := { s.v with ic := f s.v.ic }, on := g s.on } with
  | none => rw [hms] at h; cases h
  | some x =>
    rw [hms] at h
    cases h
    obtain ⟨h1, _⟩ := hm _ _ _ (⟨by show g s.on = none; rw [hs.1, hg], hs.2⟩ : Resolved E { s with v := { s.v with ic := f s.v.ic }, on := g s.on }) hms
    exact ⟨⟨rfl, h1.tree, h1.configs, h1.nextId, h1.cache, h1.parsed, h1.locked⟩, hp.refl _⟩

theorem Stays.loadOnce (p : Prov) (n : Str) : Stays E P _ (loadOnce E p n) (loadOnce E p n) := by
  have c : CoreV (Stays E P) := Stays.core hp
  unfold Hiera.loadOnce
  refine c.bind (c.lift _) (fun f => ?_)
  intro s r t hs h
  rw [bind_ok (show view s = some (.ok s.v, s) from rfl)] at h
  split at h
  · cases h; exact ⟨.refl _, hp.refl _⟩
  · have h1 : Stays E P _ (reportUnresolved n f) (reportUnresolved n f) := by
      cases f
      · exact c.report _ (by grows)
      · exact c.pure _
    have h2 : Stays E P _ (markLoaded p.id) (markLoaded p.id) := by
      intro s r t hs h
      cases h
      exact ⟨⟨rfl, rfl, rfl, rfl, rfl, rfl, rfl⟩, hp.refl _⟩
    exact c.bind h1 (fun _ => c.bind h2 (fun _ => c.pure f)) s r t hs h

theorem Stays.emit (e : Ev) : Stays E P _ (emit e) (emit e) := by
  intro s r t hs h
  cases h
  exact ⟨⟨rfl, rfl, rfl, rfl, rfl, rfl, rfl⟩, hp.refl _⟩

theorem Stays.update {f : View → View} (hf : ∀ v, ({ v with hashes := (f v).hashes, loaded := (f v).loaded, trace := (f v).trace } : View) = f v) :
    Stays E P Unit (update f) (update f) := by
  intro s r t hs h
  cases h
  have e := hf s.v
  exact ⟨⟨rfl, rfl, (congrArg View.configs e).symm, (congrArg View.nextId e).symm, (congrArg View.cache e).symm,
    (congrArg View.parsed e).symm, (congrArg View.locked e).symm⟩, by
      show P s.v.ic (f s.v).ic
      rw [← congrArg View.ic e]
      exact hp.refl _⟩

theorem Stays.dataHash (p : Prov) (n : Str) (loc : Option Loc) : Stays E P _ (dataHash E p n loc) (dataHash E p n loc) := by
  have c : CoreV (Stays E P) := Stays.core hp
  unfold Hiera.dataHash
  refine c.bind c.view (fun v => ?_)
  cases assoc (p, match loc with | some l => l.resolved | none => []) v.hashes with
  | some d => exact c.pure _
  | none =>
    refine c.bind ?_ (fun d => c.bind (Stays.update hp (fun _ => rfl)) (fun _ => c.pure _))
    unfold Hiera.callHash
    split
    · exact c.bind (Stays.emit hp _) (fun _ => c.lift _)
    · split
      · exact c.bind (Stays.emit hp _) (fun _ => c.lift _)
      · refine c.bind (Stays.loadOnce hp _ _) (fun f => ?_)
        cases f with
        | none => exact c.pure _
        | some f =>
          cases f with
          | hash f =>
            refine c.bind (Stays.emit hp _) (fun _ => c.bind (c.lift _) (fun r => ?_))
            split <;> exact c.pure _
          | _ => exact c.panic _

theorem Stays.asking (ht : TameEnv E) : Asking E (Stays E P) Tame Fits where
  toCore := (Stays.core hp).toCore
  loadOnce := Stays.loadOnce hp
  emitDig := fun _ _ => Stays.emit hp _
  emitKey := fun _ _ _ => Stays.emit hp _
  dataHash := fun p n loc _ => Stays.dataHash hp p n loc
  keyFn := ht.keyFn
  fits := fun _ _ _ h => h

theorem Stays.forData {α : Type} {m m' : M α} (hw : ∀ {a b : Ic}, WeakIc a b → a.mode = .data → P a b) (hm : Stays E WeakIc α m m') :
    Stays E P α (Hiera.forData m) (Hiera.forData m') := by
  intro s r t hs h
  unfold Hiera.forData at h
  rw [bind_ok (show view s = some (.ok s.v, s) from rfl)] at h
  split at h
  · rename_i hd
    obtain ⟨h1, h2⟩ := hm s r t hs h
    exact ⟨h1, hw h2 hd⟩
  · exact Stays.withCopy hp _ _ rfl hm s r t hs h

theorem Stays.forData' {α : Type} {m m' : M α} (hm : Stays E P α m m') : Stays E P α (Hiera.forData m) (Hiera.forData m') := by
  intro s r t hs h
  unfold Hiera.forData at h
  rw [bind_ok (show view s = some (.ok s.v, s) from rfl)] at h
  split at h
  · exact hm s r t hs h
  · exact Stays.withCopy hp _ _ rfl hm s r t hs h

theorem Stays.forLookupOptions {α : Type} {m m' : M α} (hm : Stays E P α m m') : Stays E P α (Hiera.forLookupOptions m) (Hiera.forLookupOptions m') := by
  intro s r t hs h
  unfold Hiera.forLookupOptions at h
  rw [bind_ok (show view s = some (.ok s.v, s) from rfl)] at h
  split at h
  · exact hm s r t hs h
  · exact Stays.withCopy hp _ _ rfl hm s r t hs h

omit hp in
theorem config_path (rec : Rec) (m : Str) (s : St) {rc : RCfg} (h : assoc E.configPath s.v.configs = some rc) :
    config E rec E.configPath m s = some (.ok rc, s) := by
  unfold Hiera.config
  rw [bind_ok (show view s = some (.ok s.v, s) from rfl)]
  have : (if E.configPath = [] then E.configPath else E.configPath) = E.configPath := by split <;> rfl
  simp only [this, h]
  rfl

theorem Stays.config (rec rec' : Rec) : Stays E P _ (config E rec E.configPath []) (config E rec' E.configPath []) := by
  intro s r t hs h
  obtain ⟨rc, hrc⟩ := Option.isSome_iff_exists.1 hs.2
  rw [config_path rec [] s hrc] at h
  cases h
  exact ⟨.refl _, hp.refl _⟩
end

theorem Stays.doRedacted {E : Env} {α : Type} {m m' : M α} (hm : Stays E WeakIc α m m') :
    Stays E WeakIc α (doRedacted m) (doRedacted m') := by
  intro s r t hs h
  unfold Hiera.doRedacted at h
  split at h
  · exact hm s r t hs h
  · cases hms : m { s with v := { s.v with ic := { s.v.ic with redacted := true } } } with
    | none => rw [hms] at h; cases h
    | some x =>
      rw [hms] at h
      cases h
      obtain ⟨h1, h2⟩ := hm _ _ _ (show Resolved E { s with v := { s.v with ic := { s.v.ic with redacted := true } } } from hs) hms
      exact ⟨⟨h1.on, h1.tree, h1.configs, h1.nextId, h1.cache, h1.parsed, h1.locked⟩, h2⟩

theorem Stays.weak {E : Env} (ht : TameEnv E) : Shape E (Stays E WeakIc) (Stays E WeakIc) where
  r := Stays.asking WeakIc.pre ht
  d := Stays.asking WeakIc.pre ht
  setLuOpts := fun lo s r t hs h => by cases h; exact ⟨⟨rfl, rfl, rfl, rfl, rfl, rfl, rfl⟩, rfl, rfl⟩
  setStrategy := fun lo s r t hs h => by cases h; exact ⟨⟨rfl, rfl, rfl, rfl, rfl, rfl, rfl⟩, rfl, rfl⟩
  redacted := Stays.doRedacted
  optionsR := Stays.forLookupOptions WeakIc.pre
  dataD := Stays.forData' WeakIc.pre
  dataR := Stays.forData' WeakIc.pre
  config := fun _ => Stays.config WeakIc.pre _ _
  tame := ht

theorem Stays.strong {E : Env} (ht : TameEnv E) : Shape E (Stays E StrongIc) (Stays E WeakIc) where
  r := Stays.asking StrongIc.pre ht
  d := Stays.asking WeakIc.pre ht
  setLuOpts := (Stays.weak ht).setLuOpts
  setStrategy := (Stays.weak ht).setStrategy
  redacted := Stays.doRedacted
  optionsR := Stays.forLookupOptions StrongIc.pre
  dataD := Stays.forData StrongIc.pre (fun h hd => ⟨h, fun hn => absurd hd hn⟩)
  dataR := Stays.forData' StrongIc.pre
  config := fun _ => Stays.config StrongIc.pre _ _
  tame := ht

/-- With a resolved configuration, lookups change nothing but memories. -/
theorem lookup_stays {E : Env} (ht : TameEnv E) (n : Nat) (k : Key) (o : Entries) {s t : St} {r : Res (Option Value)}
    (hs : Resolved E s) (hm : s.v.ic.mode ≠ .data) (h : (eval E n).lookup k o s = some (r, t)) : Unmoved s t ∧ t.v.ic = s.v.ic := by
  obtain ⟨h1, h2⟩ := ((Stays.strong ht).eval (Stays.weak ht) (fun _ _ _ _ _ h => nomatch h) (fun _ _ _ _ _ h => nomatch h) n).1.lookup
    k o s r t hs h
  exact ⟨h1, h2.2 hm⟩

/-! ### Resolving the configuration -/

/-- Where it succeeds without an explainer, the `Ic` changes by `P` only. -/
def Leaves (P : Ic → Ic → Prop) : Rel := fun α m _ =>
  ∀ s (a : α) t, s.on = none → m s = some (.ok a, t) → t.on = none ∧ P s.v.ic t.v.ic

section
variable {P : Ic → Ic → Prop} (hp : PreIc P)
include hp

theorem Leaves.core : CoreV (Leaves P) where
  pure := by
    intro α a s b t hs h
    cases h
    exact ⟨hs, hp.refl _⟩
  bind := by
    intro α β m m' f f' hm hf s b t hs h
    obtain ⟨a, u, h1, h2⟩ := ok_of_bind h
    obtain ⟨h3, h4⟩ := hm s a u hs h1
    obtain ⟨h5, h6⟩ := hf a u b t h3 h2
    exact ⟨h5, hp.trans h4 h6⟩
  panic := by
    intro α e s b t hs h
    cases h
  view := by
    intro s b t hs h
    cases h
    exact ⟨hs, hp.refl _⟩
  withNode := by
    intro α m m' n hm s b t hs h
    unfold Hiera.withNode at h
    rw [if_pos (by rw [hs]; rfl)] at h
    exact hm s b t hs h
  report := by
    intro f _ s b t hs h
    unfold Hiera.report at h
    rw [if_pos (by rw [hs]; rfl)] at h
    cases h
    exact ⟨hs, hp.refl _⟩

theorem Leaves.update {f : View → View} (hf : ∀ v, (f v).ic = v.ic) : Leaves P Unit (update f) (update f) := by
  intro s b t hs h
  cases h
  refine ⟨hs, ?_⟩
  show P s.v.ic (f s.v).ic
  rw [hf]
  exact hp.refl _

theorem Leaves.withCopy {α : Type} {P' : Ic → Ic → Prop} {m m' : M α} (f : Ic → Ic) (g : Option ExplOpts → Option ExplOpts)
    (hm : Leaves P' α m m') : Leaves P α (withCopy f g m) (withCopy f g m') := by
  intro s b t hs h
  unfold Hiera.withCopy at h
  cases hms : m { s with v := { s.v with ic := f s.v.ic }, on := g s.on } with
  | none => rw [hms] at h; cases h
  | some x =>
    rw [hms] at h
    obtain ⟨x1, x2⟩ := x
    cases h
    exact ⟨hs, hp.refl _⟩

theorem Leaves.loadOnce (E : Env) (p : Prov) (n : Str) : Leaves P _ (loadOnce E p n) (loadOnce E p n) := by
  have c : CoreV (Leaves P) := Leaves.core hp
  unfold Hiera.loadOnce
  refine c.bind (c.lift _) (fun f => c.bind c.view (fun v => ?_))
  by_cases hm : p.id ∈ v.loaded
  · simp only [hm, ↓reduceIte]; exact c.pure _
  · simp only [hm, ↓reduceIte]
    refine c.bind ?_ (fun _ => c.bind (Leaves.update hp (fun _ => rfl)) (fun _ => c.pure _))
    cases f
    · exact c.report _ (by grows)
    · exact c.pure _

theorem Leaves.dataHash (E : Env) (p : Prov) (n : Str) (loc : Option Loc) : Leaves P _ (dataHash E p n loc) (dataHash E p n loc) := by
  have c : CoreV (Leaves P) := Leaves.core hp
  unfold Hiera.dataHash
  refine c.bind c.view (fun v => ?_)
  cases assoc (p, match loc with | some l => l.resolved | none => []) v.hashes with
  | some d => exact c.pure _
  | none =>
    refine c.bind ?_ (fun d => c.bind (Leaves.update hp (fun _ => rfl)) (fun _ => c.pure _))
    unfold Hiera.callHash
    split
    · exact c.bind (Leaves.update hp (fun _ => rfl)) (fun _ => c.lift _)
    · split
      · exact c.bind (Leaves.update hp (fun _ => rfl)) (fun _ => c.lift _)
      · refine c.bind (Leaves.loadOnce hp E _ _) (fun f => ?_)
        cases f with
        | none => exact c.pure _
        | some f =>
          cases f with
          | hash f =>
            refine c.bind (Leaves.update hp (fun _ => rfl)) (fun _ => c.bind (c.lift _) (fun r => ?_))
            split <;> exact c.pure _
          | _ => exact c.panic _

theorem Leaves.asking {E : Env} (ht : TameEnv E) : Asking E (Leaves P) Tame Fits where
  toCore := (Leaves.core hp).toCore
  loadOnce := Leaves.loadOnce hp E
  emitDig := fun _ _ => Leaves.update hp (fun _ => rfl)
  emitKey := fun _ _ _ => Leaves.update hp (fun _ => rfl)
  dataHash := fun p n loc _ => Leaves.dataHash hp E p n loc
  keyFn := ht.keyFn
  fits := fun _ _ _ h => h

theorem Leaves.forData {α : Type} {m m' : M α} (hw : ∀ {a b : Ic}, WeakIc a b → a.mode = .data → P a b) (hm : Leaves WeakIc α m m') :
    Leaves P α (Hiera.forData m) (Hiera.forData m') := by
  intro s b t hs h
  unfold Hiera.forData at h
  rw [bind_ok (show view s = some (.ok s.v, s) from rfl)] at h
  split at h
  · rename_i hd
    obtain ⟨h1, h2⟩ := hm s b t hs h
    exact ⟨h1, hw h2 hd⟩
  · exact Leaves.withCopy hp _ _ hm s b t hs h

theorem Leaves.forData' {α : Type} {m m' : M α} (hm : Leaves P α m m') : Leaves P α (Hiera.forData m) (Hiera.forData m') := by
  have c : CoreV (Leaves P) := Leaves.core hp
  unfold Hiera.forData
  refine c.bind c.view (fun v => ?_)
  by_cases hd : v.ic.mode = .data
  · simp only [hd, ↓reduceIte]; exact hm
  · simp only [hd, ↓reduceIte]; exact Leaves.withCopy hp _ _ hm

theorem Leaves.forLookupOptions {α : Type} {m m' : M α} (hm : Leaves P α m m') :
    Leaves P α (Hiera.forLookupOptions m) (Hiera.forLookupOptions m') := by
  have c : CoreV (Leaves P) := Leaves.core hp
  unfold Hiera.forLookupOptions
  refine c.bind c.view (fun v => ?_)
  by_cases hd : v.ic.mode = .lookupOptions
  · simp only [hd, ↓reduceIte]; exact hm
  · simp only [hd, ↓reduceIte]; exact Leaves.withCopy hp _ _ hm

theorem Leaves.loadConfig (E : Env) (path : Str) : Leaves P _ (loadConfig E path) (loadConfig E path) := by
  have c : CoreV (Leaves P) := Leaves.core hp
  unfold Hiera.loadConfig
  refine c.bind c.view (fun v => ?_)
  cases (assoc path v.parsed).or (elsewhere E v path) with
  | some a => exact c.pure _
  | none =>
    by_cases hl : path ∈ v.locked
    · simp only [hl, ↓reduceIte]; exact fun _ _ _ _ h => nomatch h
    · simp only [hl, ↓reduceIte]
      refine c.bind (Leaves.update hp (fun _ => rfl)) (fun _ => ?_)
      cases newCfg E.cfg path (E.readYaml path) with
      | ok c' => exact c.bind (Leaves.update hp (fun _ => rfl)) (fun _ => c.pure _)
      | panic e => exact c.bind (Leaves.update hp (fun _ => rfl)) (fun _ => c.panic _)

variable (hsc : ∀ {a b : Ic} {sc : Scope}, P { a with scope := sc } b → P a { b with scope := a.scope })
include hsc

theorem Leaves.resolving : Resolving (Leaves P) where
  toCore := (Leaves.core hp).toCore
  doWithScope := by
    intro α m m' sc hm s b t hs h
    unfold Hiera.doWithScope at h
    rw [bind_ok (show view s = some (.ok s.v, s) from rfl)] at h
    rw [bind_ok (show (Hiera.update (fun w => { w with ic := { w.ic with scope := sc } })) s =
      some (.ok (), { s with v := { s.v with ic := { s.v.ic with scope := sc } } }) from rfl)] at h
    obtain ⟨a, u, h1, h2⟩ := ok_of_bind h
    obtain ⟨h3, h4⟩ := hm { s with v := { s.v with ic := { s.v.ic with scope := sc } } } a u hs h1
    cases h2
    exact ⟨h3, hsc h4⟩
  newProvider := fun e => (Leaves.core hp).bind (Leaves.core hp).view (fun v =>
    (Leaves.core hp).bind (Leaves.update hp (fun _ => rfl)) (fun _ => (Leaves.core hp).pure _))

theorem Leaves.config {E : Env} (ht : TameEnv E) {rec rec' : Rec} (hr : RecRelOn (Leaves P) (Leaves P) Tame rec rec') (path m : Str) :
    Leaves P _ (config E rec path m) (config E rec' path m) := by
  have c : CoreV (Leaves P) := Leaves.core hp
  have ha := Leaves.asking hp ht
  have hre := Leaves.resolving hp hsc
  have hf : ∀ {α : Type} {m m' : M α}, Leaves P α m m' → Leaves P α (forConfig m) (forConfig m') := by
    intro α m m' hm s b t hs h
    unfold Hiera.forConfig at h
    rw [hs] at h
    exact hm s b t hs h
  unfold Hiera.config
  refine c.bind c.view (fun v => ?_)
  cases assoc (if path = [] then E.configPath else path) v.configs with
  | some rc => exact c.pure _
  | none =>
    refine c.bind (Leaves.loadConfig hp E _) (fun cf => c.bind ?_ (fun rc => c.bind (Leaves.update hp (fun _ => rfl)) (fun _ => c.pure _)))
    unfold Hiera.resolve
    exact c.bind (hf (c.bind (hre.createProviders hr.interpC _ _) (fun _ => c.bind (hre.createProviders hr.interpC _ _) (fun _ => c.pure _))))
      (fun pd => c.bind (Leaves.forLookupOptions hp (c.withNode _ (ha.mergeM _ _ _ _ (fun p _ => ha.mergeLocations hr _ _ _)))) (fun v => c.pure _))
end

theorem Leaves.doRedacted {α : Type} {m m' : M α} (hm : Leaves WeakIc α m m') :
    Leaves WeakIc α (doRedacted m) (doRedacted m') := by
  intro s b t hs h
  unfold Hiera.doRedacted at h
  split at h
  · exact hm s b t hs h
  · cases hms : m { s with v := { s.v with ic := { s.v.ic with redacted := true } } } with
    | none => rw [hms] at h; cases h
    | some x =>
      rw [hms] at h
      obtain ⟨x1, x2⟩ := x
      cases h
      obtain ⟨h1, h2⟩ := hm { s with v := { s.v with ic := { s.v.ic with redacted := true } } } _ _ hs hms
      exact ⟨h1, h2⟩

theorem Leaves.weak {E : Env} (ht : TameEnv E) : Shape E (Leaves WeakIc) (Leaves WeakIc) where
  r := Leaves.asking WeakIc.pre ht
  d := Leaves.asking WeakIc.pre ht
  setLuOpts := fun lo s r t hs h => by cases h; exact ⟨hs, rfl, rfl⟩
  setStrategy := fun lo s r t hs h => by cases h; exact ⟨hs, rfl, rfl⟩
  redacted := Leaves.doRedacted
  optionsR := Leaves.forLookupOptions WeakIc.pre
  dataD := Leaves.forData' WeakIc.pre
  dataR := Leaves.forData' WeakIc.pre
  config := fun hr => Leaves.config WeakIc.pre (fun h => ⟨h.1, rfl⟩) ht hr _ _
  tame := ht

theorem Leaves.strong {E : Env} (ht : TameEnv E) : Shape E (Leaves StrongIc) (Leaves WeakIc) where
  r := Leaves.asking StrongIc.pre ht
  d := Leaves.asking WeakIc.pre ht
  setLuOpts := (Leaves.weak ht).setLuOpts
  setStrategy := (Leaves.weak ht).setStrategy
  redacted := Leaves.doRedacted
  optionsR := Leaves.forLookupOptions StrongIc.pre
  dataD := Leaves.forData StrongIc.pre (fun h hd => ⟨h, fun hn => absurd hd hn⟩)
  dataR := Leaves.forData' StrongIc.pre
  config := fun hr => Leaves.config StrongIc.pre (fun h => ⟨⟨h.1.1, rfl⟩, fun hn => by rw [h.2 hn]⟩) ht hr _ _
  tame := ht

/-- Resolving the configuration leaves the invocation as it is. -/
theorem config_leaves {E : Env} (ht : TameEnv E) (n : Nat) {s t : St} {rc : RCfg} (ho : s.on = none) (hm : s.v.ic.mode ≠ .data)
    (h : config E (eval E n) E.configPath [] s = some (.ok rc, t)) : t.on = none ∧ t.v.ic = s.v.ic := by
  have hr := ((Leaves.strong ht).eval (Leaves.weak ht) (fun _ _ _ _ _ h => nomatch h) (fun _ _ _ _ _ h => nomatch h) n).1
  obtain ⟨h1, h2⟩ := (Leaves.strong ht).config hr s rc t ho h
  exact ⟨h1, h2.2 hm⟩

end Hiera
