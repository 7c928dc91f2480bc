/- Lookups with a configuration and with modules, where each of them is an ordinary set-up (`Spec/Ordinary.lean`): whatever of
them is resolved already, resolving and looking up have the outcomes that they should have. -/
import Verif.Spec.Modular
import Verif.Props.Ordinary
import Verif.Props.Provider
import Verif.Lemmas.Path
import Verif.Lemmas.Separate
import Verif.Lemmas.Referring

set_option linter.unusedSectionVars false

set_option autoImplicit false

namespace Hiera
open Value Spec

/-- A resolved configuration is that of the levels. -/
structure RcIs (E : Env) (sc : Scope) (p m : Str) (ls : List Level) (rc : RCfg) : Prop where
  entries : rc.providers.map Prov.entry = ls.map (resolvedOf (atFile E p) sc)
  options : rc.lookupOptions = asMap (outcome (.deep []) ls "lookup_options".toList)
  moduleName : rc.moduleName = m

/-- The configurations that are resolved are as they should be. -/
structure Settled (E : Env) (sc : Scope) (site : Str → Option (Str × List Level)) (C : Ctx) (s : St) : Prop where
  on : s.on = none
  scope : s.v.ic.scope = C.scope
  coh : Coh E s.v.hashes
  within : WithinIs C.within s.v.ic
  configs : ∀ p rc, assoc p s.v.configs = some rc → ∃ m ls, site p = some (m, ls) ∧ RcIs E sc p m ls rc
  parsed : ∀ p c, assoc p s.v.parsed = some c → newCfg E.cfg p (E.readYaml p) = .ok c
  locked : s.v.locked = []

instance (E : Env) (sc : Scope) (site : Str → Option (Str × List Level)) : Firm E (Settled E sc site) where
  on h := h.on
  scope h := h.scope
  coh h := h.coh
  keep {C C' s t} h hw h1 h2 h3 h4 h5 h6 := ⟨h1, by rw [h2], h3, by
    have := h.within
    rw [hw, h2]
    unfold WithinIs at this ⊢
    cases hC : C.within <;> rw [hC] at this <;> exact this,
    by rw [h4]; exact h.configs, by rw [h5]; exact h.parsed, by rw [h6]; exact h.locked⟩

theorem SimG.bindPure {I : Ctx → St → Prop} {C : Ctx} {α β γ δ : Type} {Q : α → β → Prop} {P : γ → δ → Prop} {m : M α} {b : β}
    {f : α → M γ} {y : Ans δ} (h : SimG I C Q m (Pure.pure b)) (hf : ∀ a, Q a b → SimG I C P (f a) y) : SimG I C P (m >>= f) y := by
  intro s hs
  obtain ⟨a, t, h1, hq, ht⟩ := h s hs
  rw [bind_ok h1]
  exact hf a hq t ht

/-- Where only variables are interpolated, it does not matter what lookups do. -/
theorem vars_sim (E : Env) (I : Ctx → St → Prop) [AsMeant I] (n : Nat) : RecSimG I (fun _ => False) (eval E n) (ref E none n) := by
  induction n with
  | zero => exact ⟨fun _ _ _ h => h.elim, fun _ _ _ _ _ _ => rfl⟩
  | succ n ih => exact ⟨fun _ _ _ h => h.elim, fun _ a v hS => (interp_sim (E := E) ih a hS v).mono (fun _ _ h => h.1)⟩

/-- What interpolates without looking anything up. -/
def onlyVars (E : Env) : Rec :=
  let none : Rec := ⟨fun _ _ => hang, fun _ _ => hang, fun _ _ _ => hang⟩
  ⟨fun _ _ => hang, fun v a => interp E none a v, fun _ _ _ => hang⟩

def onlyVarsRef (E : Env) : Ref :=
  let none : Ref := ⟨fun _ _ _ => Ans.never, fun _ _ _ => Ans.never, fun _ _ _ _ => Ans.never⟩
  ⟨fun _ _ _ => Ans.never, fun C a v => refInterp E none C a v, fun _ _ _ _ => Ans.never⟩

theorem onlyVars_sim (E : Env) (I : Ctx → St → Prop) [AsMeant I] : RecSimG I (fun _ => True) (onlyVars E) (onlyVarsRef E) := by
  have h0 : RecSimG I (fun _ => True) ⟨fun _ _ => hang, fun _ _ => hang, fun _ _ _ => hang⟩
      ⟨fun _ _ _ => Ans.never, fun _ _ _ => Ans.never, fun _ _ _ _ => Ans.never⟩ :=
    ⟨fun _ _ _ _ _ _ => rfl, fun _ _ _ _ _ _ => rfl⟩
  exact ⟨fun _ _ _ _ _ _ => rfl, fun _ a v hS => (interp_sim (E := E) h0 a hS v).mono (fun _ _ h => h.1)⟩

theorem onlyVars_le (E : Env) (n : Nat) (v : Value) : Le _ (interpolate E (onlyVars E) true v) (interpolate E (eval E (n + 1)) true v) := by
  have h0 : RecRel Le Le ⟨fun _ _ => hang, fun _ _ => hang, fun _ _ _ => hang⟩ (eval E n) :=
    ⟨fun _ _ _ _ h => (by cases h), fun _ _ _ h => (by cases h), fun _ _ _ h => (by cases h), fun _ _ _ _ _ _ h => (by cases h)⟩
  have hc := Le.base.closed E Le.forConfig
  have h1 : RecRel Le Le (onlyVars E) (eval E (n + 1)) :=
    ⟨fun _ _ _ _ h => (by cases h), fun v => (hc.step h0).interp v, fun v => (hc.step h0).interpC v, fun _ _ _ _ _ _ h => (by cases h)⟩
  exact hc.interpolate h1 v

theorem atFile_eq (E : Env) (p : Str) : atFile E p = withFiles E p E.readYaml E.readJson := rfl

mutual
/-- Without references to other keys, data has one meaning. -/
theorem meant_alone {E : Env} {sc : Scope} {ls : List Sheet} : ∀ (t : Template), (∀ x fs, DataPiece.key x fs ∉ t.uses) → ∀ {v w : Value},
    Meant E sc ls t v → Meant E sc ls t w → v = w
  | .plain _, _, _, _, .plain, .plain => rfl
  | .text ps, hk, _, _, .text h, .text h' => by rw [Template.uses] at hk; rw [meantText_alone ps hk h h']
  | .alias x fs, hk, _, _, _, _ => absurd (by rw [Template.uses]; exact List.mem_singleton.2 rfl) (hk x fs)
  | .arr ts, hk, _, _, .arr h, .arr h' => by rw [Template.uses] at hk; rw [meantL_alone ts hk h h']
  | .map es, hk, _, _, .map h, .map h' => by rw [Template.uses] at hk; rw [meantE_alone es hk h h']
theorem meantText_alone {E : Env} {sc : Scope} {ls : List Sheet} : ∀ (ps : List DataPiece), (∀ x fs, DataPiece.key x fs ∉ ps) → ∀ {v w : Str},
    MeantText E sc ls ps v → MeantText E sc ls ps w → v = w
  | [], _, _, _, .nil, .nil => rfl
  | .text _ :: ps, hk, _, _, .text h, .text h' => by rw [meantText_alone ps (fun x fs hm => hk x fs (List.mem_cons_of_mem _ hm)) h h']
  | .var _ _ :: ps, hk, _, _, .var h, .var h' => by rw [meantText_alone ps (fun x fs hm => hk x fs (List.mem_cons_of_mem _ hm)) h h']
  | .key x fs :: ps, hk, _, _, _, _ => absurd (List.mem_cons_self ..) (hk x fs)
theorem meantL_alone {E : Env} {sc : Scope} {ls : List Sheet} : ∀ (ts : List Template), (∀ x fs, DataPiece.key x fs ∉ usesL ts) → ∀ {vs ws : List Value},
    MeantL E sc ls ts vs → MeantL E sc ls ts ws → vs = ws
  | [], _, _, _, .nil, .nil => rfl
  | t :: ts, hk, _, _, .cons h hs, .cons h' hs' => by
    rw [usesL] at hk
    rw [meant_alone t (fun x fs hm => hk x fs (List.mem_append_left _ hm)) h h', meantL_alone ts (fun x fs hm => hk x fs (List.mem_append_right _ hm)) hs hs']
theorem meantE_alone {E : Env} {sc : Scope} {ls : List Sheet} : ∀ (es : List (Str × Template)), (∀ x fs, DataPiece.key x fs ∉ usesE es) → ∀ {vs ws : Entries},
    MeantE E sc ls es vs → MeantE E sc ls es ws → vs = ws
  | [], _, _, _, .nil, .nil => rfl
  | (_, t) :: es, hk, _, _, .cons h hs, .cons h' hs' => by
    rw [usesE] at hk
    rw [meant_alone t (fun x fs hm => hk x fs (List.mem_append_left _ hm)) h h', meantE_alone es (fun x fs hm => hk x fs (List.mem_append_right _ hm)) hs hs']
end

/-- What a value means, whoever asks. -/
theorem fills_ref {E : Env} {sc : Scope} {v w : Value} (h : Fills E sc v w) (hv : WF v) {C : Ctx} (hC : C.scope = sc) :
    refInterp E (onlyVarsRef E) C true v = pure (some w) ∧ Unmarked w ∧ WF w := by
  cases h with
  | plain h => exact ⟨refInterp_unmarked true (unmarked_iff h), h, hv⟩
  | vars h1 h2 h3 h4 h5 =>
    obtain ⟨a1, ⟨a2, a3⟩, a4⟩ := template_meant (ls := []) (ans := fun _ => none) h4 (r := onlyVarsRef E) (C := C) (fun v hv => refInterp_unmarked true (noPercent_marked hv)) hC
      _ h1 h3 (fun x fs hm => absurd hm (h2 x fs))
    have := meant_alone _ h2 a1 h5
    subst this
    exact ⟨a4, noPercent_unmarked a2, a3⟩

theorem fills_sim {E : Env} {I : Ctx → St → Prop} [AsMeant I] {sc : Scope} {v w : Value} (h : Fills E sc v w) (hv : WF v) {C : Ctx} (hC : C.scope = sc) (n : Nat) :
    SimH I C (interpolate E (eval E (n + 1)) true v) (pure (some w)) := by
  intro s hs
  have h1 := interpolate_sim (onlyVars_sim E I) (E := E) (C := C) true (fun _ => trivial) v s hs
  rw [(fills_ref h hv hC).1] at h1
  obtain ⟨a, t, h2, h3, h4⟩ := h1
  exact ⟨a, t, onlyVars_le E n v s _ h2, h3, h4⟩

/-- Levels that have what the values of other levels mean. -/
def LevelsMean (E : Env) (sc : Scope) (key : Str) (ls ms : List Level) : Prop :=
  List.Forall₂ (fun l m => Option.Rel (Fills E sc) (l.has key) (m.has key)) ls ms

theorem levels_plain {E : Env} {sc : Scope} {key : Str} {ls : List Level} (h : ∀ v ∈ valuesOf ls key, Unmarked v) : LevelsMean E sc key ls ls := by
  unfold LevelsMean
  rw [List.forall₂_same]
  intro l hl
  cases hv : l.has key with
  | none => exact .none
  | some v => exact .some (.plain (h v (List.mem_filterMap.2 ⟨l, hl, hv⟩)))

theorem mean_values {E : Env} {sc : Scope} {key : Str} {ls ms : List Level} (hw : ∀ v ∈ valuesOf ls key, WF v) (h : LevelsMean E sc key ls ms) :
    ∀ w ∈ valuesOf ms key, Unmarked w ∧ WF w := by
  induction h with
  | nil => intro w hw; cases hw
  | @cons l m ls ms h1 h2 ih =>
    intro w hm
    rw [valuesOf_cons] at hw hm
    cases h1' : l.has key <;> cases h2' : m.has key <;> rw [h1', h2'] at h1 <;> cases h1 <;> rw [h1'] at hw <;> rw [h2'] at hm
    · exact ih hw w hm
    · rename_i hf
      rcases List.mem_cons.1 hm with rfl | hm
      · exact (fills_ref hf (hw _ (List.mem_cons_self ..)) (C := ⟨sc, .call⟩) rfl).2
      · exact ih (fun v hv => hw v (List.mem_cons_of_mem _ hv)) w hm

theorem levels_mean {E : Env} {sc : Scope} {key : Str} : ∀ {ls : List Level} {vs : List Value}, List.Forall₂ (Fills E sc) (valuesOf ls key) vs →
    ∃ ms, LevelsMean E sc key ls ms ∧ valuesOf ms key = vs
  | [], _, .nil => ⟨[], .nil, rfl⟩
  | l :: ls, vs, h => by
    rw [valuesOf_cons] at h
    have has : ∀ v : Option Value, (⟨[], [], v.map (fun v => [(.str key, v)])⟩ : Level).has key = v := by
      intro v
      cases v with
      | none => rfl
      | some v => simp [Level.has, Entries.getS, Entries.get, equals_str]
    cases hv : l.has key with
    | none =>
      rw [hv] at h
      obtain ⟨ms, h1, h2⟩ := levels_mean h
      refine ⟨⟨[], [], none⟩ :: ms, .cons ?_ h1, ?_⟩
      · rw [hv]; exact .none
      · rw [valuesOf_cons]; exact h2
    | some v =>
      rw [hv] at h
      cases h with
      | @cons _ w _ ws h3 h4 =>
        obtain ⟨ms, h1, h2⟩ := levels_mean h4
        refine ⟨⟨[], [], (some w).map (fun v => [(.str key, v)])⟩ :: ms, .cons ?_ h1, ?_⟩
        · rw [hv, has]; exact .some h3
        · rw [valuesOf_cons, has, h2]; rfl

section
variable {E : Env} {I : Ctx → St → Prop} [Firm E I] {sc : Scope} {p : Str} {ls : List Level} (ho : Ordinary (atFile E p) sc ls) {C : Ctx}

theorem hash_sim (q : Prov) (n : Str) (loc : Option Loc) (hf : Fits q n loc) :
    SimH I C (dataHash E q n loc) (Ans.of (refHash E q.entry n (optionsFor q loc))) := by
  intro s hs
  have h1 : s.on = none := AsMeant.on hs
  have h2 : Coh E s.v.hashes := Firm.coh hs
  have h3 : s.v.ic.scope = C.scope := AsMeant.scope hs
  obtain ⟨hs', ld, tr, h, hc⟩ := dataHash_coherent E q n loc hf s h1 h2
  have e : hashOf E q n (optionsFor q loc) = refHash E q.entry n (optionsFor q loc) := rfl
  rw [e] at h
  cases hl : refHash E q.entry n (optionsFor q loc) with
  | panic e => rw [hl] at h; exact ⟨_, h⟩
  | ok f =>
    rw [hl] at h
    exact ⟨f, _, h, rfl, Firm.keep hs rfl h1 (by rw [← h3]) hc rfl rfl rfl⟩

include ho

theorem level_sim (hC : C.scope = sc) {l : Level} (hl : l ∈ ls) (n : Nat) (q : Prov) (hq : q.entry = resolvedOf (atFile E p) sc l) (k : Key) (st : Strategy)
    {x : Option Value} (hx : Option.Rel (Fills E sc) (l.has k.root) x) : SimH I C (mergeLocations E (eval E (n + 1)) k st q) (pure x) := by
  unfold mergeLocations
  refine .node _ ?_
  rw [hq]
  show SimH I C (invokeWithLocation E (eval E (n + 1)) q k (.path l.written (l.file (atFile E p) sc) (E.stat (l.file (atFile E p) sc)))) _
  unfold invokeWithLocation
  refine .node _ ?_
  cases hd : l.data with
  | none =>
    rw [show E.stat (l.file (atFile E p) sc) = false from ho.absent l hl hd, if_neg (by intro h; cases h)]
    refine .report _ (.pure ?_)
    rw [Level.has, hd] at hx
    cases hx
    rfl
  | some es =>
    obtain ⟨h1, h2, h3⟩ := ho.there l hl es hd
    rw [show E.stat (l.file (atFile E p) sc) = true from h1, if_pos (by rfl)]
    have hh : refHash E q.entry "yaml_data".toList (optionsFor q (some (.path l.written (l.file (atFile E p) sc) true))) = .ok es := by
      unfold refHash
      rw [if_pos rfl]
      have : ∀ f : Str, fileData E E.readYaml (optionsFor q (some (.path l.written f true))) =
        match E.readYaml f with
        | .missing => .ok []
        | .err e => .panic e
        | .value (.map es) => .ok es
        | .value _ => .panic (.notHash f) := fun f => by unfold optionsFor; rw [hq]; rfl
      rw [this, show E.readYaml (l.file (atFile E p) sc) = .value (.map es) from h2]
    unfold provLookup
    rw [hq]
    show SimH I C (dataHash E q "yaml_data".toList _ >>= _) _
    have hs := hash_sim (I := I) (C := C) q "yaml_data".toList (some (.path l.written (l.file (atFile E p) sc) true)) ⟨by rw [hq]; rfl, by rw [hq]; rfl⟩
    rw [hh] at hs
    have hg : l.has k.root = Entries.getS es k.root := by rw [Level.has, hd]; rfl
    rw [hg] at hx
    have : (pure x : Ans (Option Value)) = Ans.of (.ok es) >>= fun _ => pure x := rfl
    rw [this]
    refine .bindOf hs (fun a ha => ?_)
    cases ha
    cases hv : Entries.getS es k.root with
    | none => rw [hv] at hx; cases hx; exact reportResult_sim _ _
    | some v =>
      rw [hv] at hx
      cases hx with
      | some hf =>
        dsimp only
        refine .bindPure (fills_sim hf (Entries.WF_of_get h3 hv) hC n) (fun a ha => ?_)
        subst ha
        exact reportResult_sim _ _

theorem level_ref (hC : C.scope = sc) {l : Level} (hl : l ∈ ls) (k : Key) (st : Strategy) {x : Option Value}
    (hx : Option.Rel (Fills E sc) (l.has k.root) x) : refEntry (atFile E p) (onlyVarsRef E) C k st (resolvedOf (atFile E p) sc l) = pure x := by
  rw [refEntry_read ho hl]
  cases hv : l.has k.root with
  | none => rw [hv] at hx; cases hx; rfl
  | some v =>
    rw [hv] at hx
    cases hx with
    | some hf =>
      have hw : WF v := valuesOf_WF ho (key := k.root) (List.mem_filterMap.2 ⟨l, hl, hv⟩)
      show refInterp (atFile E p) (onlyVarsRef E) C true v = _
      rw [atFile_eq, refInterp_files, (fills_ref hf hw hC).1]

theorem hierarchy_sim (hC : C.scope = sc) (n : Nat) (ps : List Prov) (hp : ps.map Prov.entry = ls.map (resolvedOf (atFile E p) sc)) (k : Key) (st : Strategy)
    {ms : List Level} (hm : LevelsMean E sc k.root ls ms) : SimH I C (mergeHierarchy E (eval E (n + 1)) k ps st) (pure (outcome st ms k.root)) := by
  have h := mergeM_sim (I := I) (C := C) st ps (mergeLocations E (eval E (n + 1)) k st) (fun q => refEntry (atFile E p) (onlyVarsRef E) C k st q.entry) (fun q hq => ?_)
  · have e : (ls.map (resolvedOf (atFile E p) sc)).map (refEntry (atFile E p) (onlyVarsRef E) C k st) = ms.map (fun m => pure (m.has k.root)) := by
      rw [List.map_map]
      have : ∀ {as bs : List Level}, (∀ a ∈ as, a ∈ ls) → List.Forall₂ (fun l m => Option.Rel (Fills E sc) (l.has k.root) (m.has k.root)) as bs →
          as.map (refEntry (atFile E p) (onlyVarsRef E) C k st ∘ resolvedOf (atFile E p) sc) = bs.map (fun m => pure (m.has k.root)) := by
        intro as bs ha hab
        induction hab with
        | nil => rfl
        | cons h1 _ ih =>
          rw [List.map_cons, List.map_cons, ih (fun a h => ha a (List.mem_cons_of_mem _ h))]
          congr 1
          exact level_ref ho hC (ha _ (List.mem_cons_self ..)) k st h1
      exact this (fun _ h => h) hm
    rw [← refMerge_pure, ← e, ← hp, List.map_map]
    exact h
  · have : q.entry ∈ ls.map (resolvedOf (atFile E p) sc) := hp ▸ List.mem_map_of_mem hq
    obtain ⟨l, hl, he⟩ := List.mem_map.1 this
    obtain ⟨m, hx⟩ : ∃ m : Level, Option.Rel (Fills E sc) (l.has k.root) (m.has k.root) := by
      have mem : ∀ {as bs : List Level}, List.Forall₂ (fun l m => Option.Rel (Fills E sc) (l.has k.root) (m.has k.root)) as bs → l ∈ as →
          ∃ m : Level, Option.Rel (Fills E sc) (l.has k.root) (m.has k.root) := by
        intro as bs hab
        induction hab with
        | nil => intro h; cases h
        | cons h1 _ ih =>
          intro h
          rcases List.mem_cons.1 h with rfl | h
          · exact ⟨_, h1⟩
          · exact ih h
      exact mem hm hl
    rw [← he, level_ref ho hC hl k st hx]
    exact level_sim ho hC hl n q he.symm k st hx

theorem providers_sim (hC : C.scope = sc) (n : Nat) {c : Cfg} (hc : newCfg E.cfg p (E.readYaml p) = .ok c) :
    SimG I C (fun ps b => ps.map Prov.entry = b) (createProviders E (eval E (n + 1)) c c.hierarchy) (pure (ls.map (resolvedOf (atFile E p) sc))) ∧
    SimG I C (fun ps b => ps.map Prov.entry = b) (createProviders E (eval E (n + 1)) c c.defaultHierarchy) (pure []) := by
  have hn := newCfg_levels ho
  rw [show newCfg (atFile E p).cfg (atFile E p).configPath ((atFile E p).readYaml (atFile E p).configPath) = .ok c from hc] at hn
  cases hn
  obtain ⟨sc', w⟩ := C
  subst hC
  have h := fun es => createProviders_sim (E := E) (vars_sim E I (n + 1)) (C := ⟨sc', w⟩) ⟨dir p, p, makeDefaultConfig E.cfg (dir p),
    ls.map (entryOf (dir p)), []⟩ es
  have e : ∀ es, refLevels E (ref E none (n + 1)) ⟨sc', w⟩ ⟨dir p, p, makeDefaultConfig E.cfg (dir p), ls.map (entryOf (dir p)), []⟩ es =
      (refResolve (atFile E p) (ref (atFile E p) none (n + 1)) ⟨sc', w⟩ none (makeDefaultConfig (atFile E p).cfg (dir (atFile E p).configPath)) >>=
        fun d => refResolveAll (atFile E p) (ref (atFile E p) none (n + 1)) ⟨sc', w⟩ d es) := fun es => by
    rw [← refLevels_files E p E.readYaml E.readJson, ← ref_none_files E p E.readYaml E.readJson]
    rfl
  refine ⟨?_, ?_⟩
  · have h1 := h (ls.map (entryOf (dir p)))
    rw [e, refDefaults ho, Ans.pure_bind] at h1
    have h2 := refLevels_ordinary ho n w
    rw [show ls.map (entryOf (dir p)) = ls.map (entryOf (dir (atFile E p).configPath)) from rfl, h2] at h1
    exact h1
  · have h1 := h []
    rw [e, refDefaults ho, Ans.pure_bind] at h1
    exact h1

end

/-! ### Configurations -/

section
variable {E : Env} {sc : Scope} {site : Str → Option (Str × List Level)} {p m : Str} {ls : List Level}

/-- To do something as a lookup of options. -/
theorem options_sim {α β : Type} {Q : α → β → Prop} {x : Ans β} {f : M α} {C : Ctx}
    (h : SimG (Settled E sc site) { C with within := .options } Q f x) : SimG (Settled E sc site) C Q (forLookupOptions f) x := by
  intro s hs
  unfold forLookupOptions
  rw [bind_ok (show view s = some (.ok s.v, s) from rfl)]
  split
  · next hm =>
    have h1 := h s ⟨hs.on, hs.scope, hs.coh, hm, hs.configs, hs.parsed, hs.locked⟩
    match x, h1 with
    | none, h1 => exact h1
    | some (.panic e), h1 => exact h1
    | some (.ok b), ⟨a, t, h1, q, ht⟩ =>
      refine ⟨a, t, h1, q, ⟨ht.on, ht.scope, ht.coh, ?_, ht.configs, ht.parsed, ht.locked⟩⟩
      have w1 := hs.within
      have w2 : t.v.ic.mode = .lookupOptions := ht.within
      unfold WithinIs at w1 ⊢
      cases hC : C.within with
      | options => exact w2
      | call => rw [hC] at w1; rw [w1.1] at hm; cases hm
      | value st => rw [hC] at w1; rw [w1.1] at hm; cases hm
  · unfold withCopy
    have h1 := h { s with v := { s.v with ic := { s.v.ic with mode := .lookupOptions } }, on := explForOptions s.on }
      ⟨by show explForOptions s.on = none; rw [hs.on]; rfl, hs.scope, hs.coh, rfl, hs.configs, hs.parsed, hs.locked⟩
    match x, h1 with
    | none, h1 => rw [h1]
    | some (.panic e), ⟨t, h1⟩ => rw [h1]; exact ⟨_, rfl⟩
    | some (.ok b), ⟨a, t, h1, q, ht⟩ =>
      rw [h1]
      exact ⟨a, _, rfl, q, ⟨hs.on, hs.scope, ht.coh, hs.within, ht.configs, ht.parsed, ht.locked⟩⟩

variable (ho : Ordinary (atFile E p) sc ls) (hu : ∀ v ∈ valuesOf ls "lookup_options".toList, Unmarked v) {w : Within} (n : Nat)
include ho hu

theorem resolve_settled {c : Cfg} (hc : newCfg E.cfg p (E.readYaml p) = .ok c) :
    SimG (Settled E sc site) ⟨sc, w⟩ (fun rc _ => RcIs E sc p m ls rc) (resolve E (eval E (n + 1)) c m) (pure ()) := by
  unfold resolve
  obtain ⟨h1, h2⟩ := providers_sim (I := Settled E sc site) (C := ⟨sc, w⟩) ho rfl n hc
  have h3 : SimG (Settled E sc site) ⟨sc, w⟩ (fun (pd : List Prov × List Prov) b => pd.1.map Prov.entry = b)
      (forConfig (do
        let ps ← createProviders E (eval E (n + 1)) c c.hierarchy
        let ds ← createProviders E (eval E (n + 1)) c c.defaultHierarchy
        pure (ps, ds))) (pure (ls.map (resolvedOf (atFile E p) sc)) >>= fun es => pure [] >>= fun (_ : List Entry) => pure es) :=
    forConfig_sim (vars_sim E (Settled E sc site) (n + 1)) (.bind h1 (fun ps b h => .bind h2 (fun _ _ _ => .pure h)))
  rw [Ans.pure_bind, Ans.pure_bind] at h3
  refine .bindPure h3 (fun pd h => ?_)
  have h4 : SimH (Settled E sc site) ⟨sc, w⟩ (forLookupOptions (withNode (.new .lookup lookupOptionsKey.source)
      (mergeM (.deep []) pd.1 (mergeLocations E (eval E (n + 1)) lookupOptionsKey (.deep [])))))
      (pure (outcome (.deep []) ls "lookup_options".toList)) :=
    options_sim (.node _ (hierarchy_sim ho rfl n pd.1 h lookupOptionsKey (.deep []) (levels_plain hu)))
  exact .bindPure h4 (fun lo hb => .pure ⟨h, by rw [hb], rfl⟩)

theorem config_settled (hp : p = E.configPath ∨ p ≠ []) (hsite : site p = some (m, ls)) :
    SimG (Settled E sc site) ⟨sc, w⟩ (fun rc _ => RcIs E sc p m ls rc) (config E (eval E (n + 1)) p m) (pure ()) := by
  intro s hs
  unfold config
  have hpp : (if p = [] then E.configPath else p) = p := by
    rcases hp with h | h
    · rw [← h]; split <;> rfl
    · exact if_neg h
  rw [hpp, bind_ok (show view s = some (.ok s.v, s) from rfl)]
  cases ha : assoc p s.v.configs with
  | some rc =>
    obtain ⟨m', ls', h1, h2⟩ := hs.configs p rc ha
    rw [hsite] at h1
    cases h1
    exact ⟨rc, s, rfl, h2, hs⟩
  | none =>
    obtain ⟨c, hc⟩ : ∃ c, newCfg E.cfg p (E.readYaml p) = .ok c := ⟨_, newCfg_levels ho⟩
    have hl : ∃ t, loadConfig E p s = some (.ok c, t) ∧ Settled E sc site ⟨sc, w⟩ t := by
      unfold loadConfig
      rw [bind_ok (show view s = some (.ok s.v, s) from rfl)]
      cases ha : (assoc p s.v.parsed).or (elsewhere E s.v p) with
      | some c' =>
        have : newCfg E.cfg p (E.readYaml p) = .ok c' := (Option.or_eq_some_iff.1 ha).elim (hs.parsed _ _) (fun h => elsewhere_ok h.2)
        rw [hc] at this
        cases this
        exact ⟨s, rfl, hs⟩
      | none =>
        dsimp only
        rw [if_neg (by rw [hs.locked]; simp), hc]
        refine ⟨_, rfl, ⟨hs.on, hs.scope, hs.coh, hs.within, hs.configs, fun q c' hq => ?_, hs.locked⟩⟩
        by_cases h : q = p
        · subst h
          have : assoc q ((q, c) :: s.v.parsed) = some c := if_pos rfl
          rw [show assoc q ((q, c) :: s.v.parsed) = some c' from hq] at this
          cases this
          exact hc
        · have : assoc q ((p, c) :: s.v.parsed) = assoc q s.v.parsed := if_neg h
          rw [show assoc q ((p, c) :: s.v.parsed) = some c' from hq] at this
          exact hs.parsed q c' this.symm
    obtain ⟨t, h1, ht⟩ := hl
    obtain ⟨rc, u, h2, hr, hu'⟩ := resolve_settled (site := site) (m := m) (w := w) ho hu n hc t ht
    refine ⟨rc, { u with v := { u.v with configs := (p, rc) :: u.v.configs } }, ?_, hr, ⟨hu'.on, hu'.scope, hu'.coh, hu'.within, ?_, hu'.parsed, hu'.locked⟩⟩
    · dsimp only
      rw [bind_ok h1, bind_ok h2]
      rfl
    · intro q rc' hq
      by_cases h : q = p
      · subst h
        have : assoc q ((q, rc) :: u.v.configs) = some rc := if_pos rfl
        rw [show assoc q ((q, rc) :: u.v.configs) = some rc' from hq] at this
        cases this
        exact ⟨m, ls, hsite, hr⟩
      · have : assoc q ((p, rc) :: u.v.configs) = assoc q u.v.configs := if_neg h
        rw [show assoc q ((p, rc) :: u.v.configs) = some rc' from hq] at this
        exact hu'.configs q rc' this.symm

variable (hp : p = E.configPath ∨ p ≠ []) (hsite : site p = some (m, ls)) {key : Str} {k : Key} (hk : newKey key = .ok k) (opts : Entries)
include hp hsite hk

theorem configAt_options : SimH (Settled E sc site) ⟨sc, .options⟩ (configAt E (eval E (n + 1)) p opts key m)
    (pure (((⟨[], [], asMap (outcome (.deep []) ls "lookup_options".toList), m⟩ : RCfg).optionsOf k).map .map)) := by
  unfold configAt
  refine .bindPure (config_settled ho hu n hp hsite) (fun rc hrc => ?_)
  rw [hk, M.lift_ok_bind]
  intro s hs
  rw [bind_ok (show view s = some (.ok s.v, s) from rfl), show s.v.ic.mode = .lookupOptions from hs.within]
  refine ⟨_, s, rfl, ?_, hs⟩
  unfold RCfg.optionsOf
  rw [hrc.options, hrc.moduleName]

theorem configAt_value (st : Strategy) {ms : List Level} (hv : LevelsMean E sc k.root ls ms) :
    SimH (Settled E sc site) ⟨sc, .value (some st)⟩ (configAt E (eval E (n + 1)) p opts key m) (pure (outcome st ms k.root)) := by
  unfold configAt
  refine .bindPure (config_settled ho hu n hp hsite) (fun rc hrc => ?_)
  rw [hk, M.lift_ok_bind]
  intro s hs
  obtain ⟨h1, h2⟩ := hs.within
  rw [bind_ok (show view s = some (.ok s.v, s) from rfl), h1]
  dsimp only
  rw [bind_ok (show currentStrategy s = some (.ok st, s) by
    unfold currentStrategy
    rw [bind_ok (show view s = some (.ok s.v, s) from rfl), h2]
    rfl)]
  exact hierarchy_sim ho rfl n rc.providers hrc.entries k st hv s hs

end

/-! ### Lookups -/

theorem moduleFile_ne (d e : Str) : moduleFile d e ≠ [] := by
  have last : ∀ (b : Bool) (es : List Str), ∃ out, cleanElems b [] (es ++ ["hiera.yaml".toList]) = out ++ ["hiera.yaml".toList] := by
    intro b es
    rw [cleanElems_append, cleanElems_cons, if_neg (by decide), if_neg (by decide)]
    exact ⟨(cleanElems b [] es), by simp [cleanElems]⟩
  have ne : ∀ out : List Str, joinSlash (out ++ ["hiera.yaml".toList]) ≠ [] := by
    intro out
    match out with
    | [] => decide
    | [x] => simp [joinSlash]
    | x :: y :: out => simp [joinSlash]
  have cl : ∀ es p, splitSlash [] p = es ++ ["hiera.yaml".toList] → clean p ≠ [] := by
    intro es p hp
    obtain ⟨out, ho⟩ := last (isAbs p) es
    unfold clean
    rw [hp, ho]
    simp only
    split
    · simp
    · split
      · simp
      · exact ne out
  have hs : splitSlash [] "hiera.yaml".toList = ["hiera.yaml".toList] := by decide
  unfold moduleFile
  generalize join d e = a
  unfold join
  split
  · exact cl (splitSlash [] a) _ (by rw [splitSlash_two, hs])
  · rw [if_pos (by decide)]
    exact cl [] _ hs

theorem lower_idem (c : Char) : c.toLower.toLower = c.toLower := by
  have lt : ∀ d : Char, ¬(d.val ≥ 'A'.val ∧ d.val ≤ 'Z'.val) → d.toLower = d := fun d h => by unfold Char.toLower; rw [dif_neg h]
  by_cases h : c.val ≥ 'A'.val ∧ c.val ≤ 'Z'.val
  · refine lt _ (fun h2 => ?_)
    have h1 : 65 ≤ c.val.toNat ∧ c.val.toNat ≤ 90 := h
    have e : c.toLower.val = c.val + 32 := by unfold Char.toLower; rw [dif_pos h]; rfl
    have : c.toLower.val.toNat ≤ 90 := h2.2
    rw [e, UInt32.toNat_add] at this
    have e : (32 : UInt32).toNat = 32 := rfl
    omega
  · rw [lt c h, lt c h]

theorem toLower_idem (n : Str) : toLower (toLower n) = toLower n := by
  unfold toLower
  rw [List.map_map]
  exact List.map_congr_left (fun c _ => lower_idem c)

/-- The configuration, and that of the module, are among those that there are. -/
def SiteHas (E : Env) (ls : List Level) (md : Option Module) (site : Str → Option (Str × List Level)) : Prop :=
  site E.configPath = some ([], ls) ∧ ∀ m, md = some m → site m.config = some (m.name, m.levels)

theorem hasPrefix_eq : ∀ (p s : Str), hasPrefix p s = p.isPrefixOf s
  | [], s => by simp [hasPrefix]
  | _ :: _, [] => by simp [hasPrefix]
  | a :: p, b :: s => by
    show (a == b && hasPrefix p s) = (a == b && p.isPrefixOf s)
    rw [hasPrefix_eq p s]

section
variable {E : Env} {sc : Scope} {ls : List Level} {md : Option Module} {key : Str} {opts : Entries} {st : Str}

/-- What the lookup options of some levels say about a key. -/
def keyOptions (ls : List Level) (key : Str) : Option Entries :=
  (asMap (outcome (.deep []) ls "lookup_options".toList)).bind (fun m => asMap (Entries.getS m key))

variable {site : Str → Option (Str × List Level)} (hq : ModuleQuestion E sc ls md key opts st) (n : Nat)
include hq

theorem config_said (hsite : SiteHas E ls md site) : SimH (Settled E sc site) ⟨sc, .options⟩ (callLk E (eval E (n + 1)) .config opts key)
    (pure ((keyOptions ls key).map .map)) := by
  have hnk : newKey key = .ok ⟨key, [.name key]⟩ := by simpa [joinDots] using segments_key (xs := [key]) (by simp) (by simpa using hq.part)
  have h := configAt_options (E := E) (p := E.configPath) (m := []) (site := site) hq.setup
    (fun v hv => (hq.options v (by unfold valuesOf at hv ⊢; rw [List.filterMap_append]; exact List.mem_append_left _ hv)).1) n (.inl rfl)
    hsite.1 hnk opts
  have e : (⟨[], [], asMap (outcome (.deep []) ls "lookup_options".toList), []⟩ : RCfg).optionsOf ⟨key, [.name key]⟩ = keyOptions ls key := by
    unfold RCfg.optionsOf keyOptions
    cases asMap (outcome (.deep []) ls "lookup_options".toList) with
    | none => rfl
    | some lo => simp only [true_or, if_true, Option.bind_some]; rfl
  rw [e] at h
  exact h

theorem config_has (hsite : SiteHas E ls md site) (stv : Strategy) {ls' : List Level} (hv : LevelsMean E sc key ls ls') :
    SimH (Settled E sc site) ⟨sc, .value (some stv)⟩ (callLk E (eval E (n + 1)) .config opts key) (pure (outcome stv ls' key)) := by
  have hnk : newKey key = .ok ⟨key, [.name key]⟩ := by simpa [joinDots] using segments_key (xs := [key]) (by simp) (by simpa using hq.part)
  exact configAt_value (E := E) (p := E.configPath) (m := []) (site := site) hq.setup
    (fun v hv => (hq.options v (by unfold valuesOf at hv ⊢; rw [List.filterMap_append]; exact List.mem_append_left _ hv)).1) n (.inl rfl)
    hsite.1 hnk opts stv hv

theorem module_finds : (md = none ∧ ∀ s : St, s.on = none → ∀ rec, moduleLookup E rec opts key s = some (.ok none, s)) ∨
    ∃ m, md = some m ∧ m.name ≠ [] ∧ m.config ≠ [] ∧ m.config ≠ E.configPath ∧ Ordinary (atFile E m.config) sc m.levels ∧
      ∀ s : St, s.on = none → ∀ rec, moduleLookup E rec opts key s = configAt E rec m.config opts key m.name s := by
  have one : ∀ {a b : Str}, BeforeColons key a → BeforeColons key b → a = b := by
    intro a b ha hb
    have h1 := (beforeColons_iff key [] a).2 ⟨a, rfl, ha⟩
    rw [(beforeColons_iff key [] b).2 ⟨b, rfl, hb⟩] at h1
    exact (Option.some.inj h1).symm
  cases hq.belongs with
  | nowhere h =>
    refine .inl ⟨rfl, fun s hs rec => ?_⟩
    obtain ⟨_, _, h3, h4⟩ := C57_lookup E rec opts key s hs
    by_cases hb : ∃ n, BeforeColons key n
    · obtain ⟨n, hb⟩ := hb
      have := h n hb
      subst this
      exact h3 hb
    · exact h4 (fun n hn => hb ⟨n, hn⟩)
  | @unknown n hb hn h =>
    refine .inl ⟨rfl, fun s hs rec => ?_⟩
    exact (C57_lookup E rec opts key s hs).2.1 n hb hn (C57_not_found_partial E _ _ (fun d hd => (h d hd).1)
      (fun d hd => by have := (h d hd).2; unfold Lacks at this ⊢; rw [toLower_idem]; exact this))
  | @module n d cp ls' pre post hb hn hm hpre hd hh hne ho =>
    refine .inr ⟨_, rfl, ?_, ?_, hne, ho, fun s hs rec => ?_⟩
    · show toLower n ≠ []
      unfold toLower
      simpa using hn
    · obtain ⟨es, dir, _, _, _, hcp, _⟩ := hh
      show cp ≠ []
      rw [hcp]
      exact moduleFile_ne _ _
    · refine (C57_lookup E rec opts key s hs).1 n hb hn cp ?_
      rw [hm]
      refine C57_found_partial E _ pre post d cp ?_ ?_ ?_
      · intro p hp
        rcases List.mem_append.1 hp with hp | hp
        · exact (hpre p hp).1
        · rw [List.mem_singleton.1 hp]; exact hd
      · intro p hp
        have := (hpre p hp).2
        unfold Lacks at this ⊢
        rw [toLower_idem]
        exact this
      · unfold Holds at hh ⊢
        rw [toLower_idem]
        exact hh

theorem of_module {x : Str} {v : Value} (h : v ∈ valuesOf (levelsOf md) x) : v ∈ valuesOf (ls ++ levelsOf md) x := by
  unfold valuesOf at h ⊢
  rw [List.filterMap_append]
  exact List.mem_append_right _ h

theorem module_said (hsite : SiteHas E ls md site) : SimH (Settled E sc site) ⟨sc, .options⟩ (callLk E (eval E (n + 1)) .module opts key)
    (pure ((keyOptions (heeded key md) key).map .map)) := by
  have hnk : newKey key = .ok ⟨key, [.name key]⟩ := by simpa [joinDots] using segments_key (xs := [key]) (by simp) (by simpa using hq.part)
  show SimH _ _ (moduleLookup E (eval E (n + 1)) opts key) _
  intro s hs
  rcases module_finds hq with ⟨h, hf⟩ | ⟨m, h, hn, hc, hne, ho, hf⟩
  · subst h
    rw [hf s hs.on]
    exact ⟨none, s, rfl, rfl, hs⟩
  · subst h
    rw [hf s hs.on]
    have hh := configAt_options (E := E) (p := m.config) (m := m.name) (site := site) ho
      (fun v hv => (hq.options v (of_module hq hv)).1) n (.inr hc)
      (hsite.2 m rfl) hnk opts
    have e : (⟨[], [], asMap (outcome (.deep []) m.levels "lookup_options".toList), m.name⟩ : RCfg).optionsOf ⟨key, [.name key]⟩ =
        keyOptions (heeded key (some m)) key := by
      unfold RCfg.optionsOf keyOptions
      rw [hasPrefix_eq]
      by_cases hp : (m.name ++ "::".toList).isPrefixOf key = true
      · rw [show heeded key (some m) = m.levels from if_pos hp]
        cases asMap (outcome (.deep []) m.levels "lookup_options".toList) with
        | none => rfl
        | some lo => exact if_pos (.inr hp)
      · rw [show heeded key (some m) = [] from if_neg hp]
        cases asMap (outcome (.deep []) m.levels "lookup_options".toList) with
        | none => rfl
        | some lo => exact if_neg (fun hx => hx.elim hn hp)
    rw [e] at hh
    exact hh s hs

theorem module_has (hsite : SiteHas E ls md site) (stv : Strategy) {ms' : List Level} (hv : LevelsMean E sc key (levelsOf md) ms') :
    SimH (Settled E sc site) ⟨sc, .value (some stv)⟩ (callLk E (eval E (n + 1)) .module opts key) (pure (outcome stv ms' key)) := by
  have hnk : newKey key = .ok ⟨key, [.name key]⟩ := by simpa [joinDots] using segments_key (xs := [key]) (by simp) (by simpa using hq.part)
  show SimH _ _ (moduleLookup E (eval E (n + 1)) opts key) _
  intro s hs
  rcases module_finds hq with ⟨h, hf⟩ | ⟨m, h, hn, hc, hne, ho, hf⟩
  · subst h
    cases hv
    rw [hf s hs.on]
    exact ⟨none, s, rfl, by cases stv <;> rfl, hs⟩
  · subst h
    rw [hf s hs.on]
    exact configAt_value (E := E) (p := m.config) (m := m.name) (site := site) ho
      (fun v hv => (hq.options v (of_module hq hv)).1) n (.inr hc)
      (hsite.2 m rfl) hnk opts stv hv s hs

omit hq in
/-- Two values, as the levels of one of which each is. -/
def side (x : Str) (v : Option Value) : Level := ⟨[], [], v.map (fun v => [(.str x, v)])⟩

omit hq in
theorem side_has (x : Str) (v : Option Value) : (side x v).has x = v := by
  cases v with
  | none => rfl
  | some v =>
    show Entries.getS [(.str x, v)] x = some v
    simp [Entries.getS, Entries.get, equals]

omit hq in
theorem valuesOf_sides (x : Str) (a b : Option Value) : valuesOf [side x a, side x b] x = a.toList ++ b.toList := by
  rw [valuesOf_cons, valuesOf_cons, side_has, side_has]
  simp [valuesOf]

omit hq in
theorem refMerge_two (st : Strategy) (x : Str) (a b : Option Value) :
    refMerge st [(pure a : Ans (Option Value)), pure b] = pure (outcome st [side x a, side x b] x) := by
  rw [← refMerge_pure]
  simp only [List.map_cons, List.map_nil, side_has]

/-- The lookup options of the configuration and of the module, together. -/
def bothOptions (ls ms : List Level) (key : Str) : Option Value :=
  outcome (.deep []) [side key ((keyOptions ls key).map .map), side key ((keyOptions ms key).map .map)] key

theorem heeded_of {x : Str} {v : Value} (h : v ∈ valuesOf (heeded key md) x) : v ∈ valuesOf (levelsOf md) x := by
  unfold heeded at h
  match md, h with
  | none, h => exact h
  | some m, h =>
    dsimp only at h
    split at h
    · exact h
    · cases h

theorem module_WF {x : Str} {v : Value} (h : v ∈ valuesOf (levelsOf md) x) : WF v := by
  rcases module_finds hq with ⟨e, _⟩ | ⟨m, e, _, _, _, ho, _⟩
  · subst e; cases h
  · subst e; exact valuesOf_WF ho h

theorem both_said : strategyNamed (refMergeOption opts (asMap (bothOptions ls (heeded key md) key))) = (st, none) ∧
    extractConversion E (asMap (bothOptions ls (heeded key md) key)) = .ok none := by
  obtain ⟨a0, a1, a2⟩ := options_of (ls := ls) (key := key) (fun v hv => valuesOf_WF hq.setup hv)
    (fun v hv => (hq.options v (by unfold valuesOf at hv ⊢; rw [List.filterMap_append]; exact List.mem_append_left _ hv)).2)
  obtain ⟨b0, b1, b2⟩ := options_of (ls := heeded key md) (key := key) (fun v hv => module_WF hq (heeded_of hq hv))
    (fun v hv => (hq.options v (of_module hq (heeded_of hq hv))).2)
  have hm := hq.merge
  have e : (valuesOf (ls ++ heeded key md) "lookup_options".toList).findSome? (mergeIn key) =
      ((valuesOf ls "lookup_options".toList).findSome? (mergeIn key)).or ((valuesOf (heeded key md) "lookup_options".toList).findSome? (mergeIn key)) := by
    have : valuesOf (ls ++ heeded key md) "lookup_options".toList = valuesOf ls "lookup_options".toList ++ valuesOf (heeded key md) "lookup_options".toList :=
      List.filterMap_append
    rw [this, List.findSome?_append]
  rw [← a2, ← b2] at e
  have said : (asMap (bothOptions ls (heeded key md) key)).bind (fun m => Entries.getS m "convert_to".toList) = none ∧
      (asMap (bothOptions ls (heeded key md) key)).bind (fun m => Entries.getS m "merge".toList) =
        (valuesOf (ls ++ heeded key md) "lookup_options".toList).findSome? (mergeIn key) := by
    rw [e]
    have eb : bothOptions ls (heeded key md) key =
        refCombine (.deep []) (((keyOptions ls key).map Value.map).toList ++ ((keyOptions (heeded key md) key).map Value.map).toList) := by
      rw [← valuesOf_sides key]
      rfl
    rw [eb]
    change (∀ os, keyOptions ls key = some os → _) at a0
    change (keyOptions ls key).bind _ = none at a1
    change (∀ os, keyOptions (heeded key md) key = some os → _) at b0
    change (keyOptions (heeded key md) key).bind _ = none at b1
    change _ ∧ _ = ((keyOptions ls key).bind _).or ((keyOptions (heeded key md) key).bind _)
    cases hA : keyOptions ls key with
    | none =>
      cases hB : keyOptions (heeded key md) key with
      | none => exact ⟨rfl, rfl⟩
      | some ys => rw [hB] at b1; exact ⟨b1, rfl⟩
    | some xs =>
      rw [hA] at a1
      cases hB : keyOptions (heeded key md) key with
      | none =>
        refine ⟨a1, ?_⟩
        show Entries.getS xs "merge".toList = (Entries.getS xs "merge".toList).or none
        simp
      | some ys =>
        rw [hB] at b1
        obtain ⟨zs, h1, h2, _, h4⟩ := said_merge (C10_deep (.map xs) (.map ys) (a0 xs hA).1 (b0 ys hB).1) a1 b1 (a0 xs hA).2 (b0 ys hB).2
        have : refCombine (.deep []) [Value.map xs, Value.map ys] = some (.map zs) := by rw [← h1]; rfl
        simp only [Option.map_some, Option.toList_some, List.cons_append, List.nil_append, this]
        exact ⟨h2, h4⟩
  obtain ⟨h1, h2⟩ := said
  generalize asMap (bothOptions ls (heeded key md) key) = lo at h1 h2
  have e2 : Entries.getS opts "merge".toList = none →
      refMergeOption opts lo = (valuesOf (ls ++ heeded key md) "lookup_options".toList).findSome? (mergeIn key) := fun h => by
    rw [← h2]
    unfold refMergeOption
    rw [h]
    cases lo <;> rfl
  constructor
  · cases hm with
    | asked h =>
      unfold refMergeOption
      rw [h]
      rfl
    | said h h' => rw [e2 h, h']; rfl
    | default h h' => rw [e2 h, h']; rfl
  · unfold extractConversion
    cases hx : lo with
    | none => rfl
    | some m =>
      rw [hx] at h1
      simp only [Option.bind_some] at h1
      simp only [h1]

/-- The value that the configuration and the module have together. -/
def bothValue (stv : Strategy) (ls ms : List Level) (key : Str) : Option Value :=
  outcome stv [side key (outcome stv ls key), side key (outcome stv ms key)] key

theorem mux_settled (hsite : SiteHas E ls md site) {stv : Strategy} (hst : getStrategy st none = .ok stv) {ls' ms' : List Level}
    (hvl : LevelsMean E sc key ls ls') (hvm : LevelsMean E sc key (levelsOf md) ms') :
    SimH (Settled E sc site) ⟨sc, .call⟩ (muxLookup E (eval E (n + 2)) opts key) (pure (bothValue stv ls' ms' key)) := by
  have hnk : newKey key = .ok ⟨key, [.name key]⟩ := by simpa [joinDots] using segments_key (xs := [key]) (by simp) (by simpa using hq.part)
  obtain ⟨s1, s2⟩ := both_said hq
  unfold muxLookup
  rw [hq.top.2]
  dsimp only
  have ho : SimH (Settled E sc site) ⟨sc, .call⟩
      (forLookupOptions (mergeM (.deep []) [.config, .module] (fun f => (eval E (n + 2)).lk f opts key)))
      (pure (bothOptions ls (heeded key md) key)) := by
    refine options_sim ?_
    have := mergeM_sim (I := Settled E sc site) (C := ⟨sc, .options⟩) (.deep []) [LkFn.config, .module] (fun f => (eval E (n + 2)).lk f opts key)
      (fun f => match f with | .config => pure ((keyOptions ls key).map .map) | _ => pure ((keyOptions (heeded key md) key).map .map))
      (fun f hf => by
        simp only [List.mem_cons, List.not_mem_nil, or_false] at hf
        rcases hf with rfl | rfl
        · exact config_said hq n hsite
        · exact module_said hq n hsite)
    rw [show bothOptions ls (heeded key md) key = _ from rfl]
    unfold bothOptions
    rw [← refMerge_two]
    exact this
  refine .bindPure ho (fun lo hlo => ?_)
  subst hlo
  intro s hs
  have inner := mergeM_sim (I := Settled E sc site) (C := ⟨sc, .value (some stv)⟩) stv [LkFn.config, .module] (fun f => (eval E (n + 2)).lk f opts key)
      (fun f => match f with | .config => pure (outcome stv ls' key) | _ => pure (outcome stv ms' key))
      (fun f hf => by
        simp only [List.mem_cons, List.not_mem_nil, or_false] at hf
        rcases hf with rfl | rfl
        · exact config_has hq n hsite stv hvl
        · exact module_has hq n hsite stv hvm)
  have inner : SimH (Settled E sc site) ⟨sc, .value (some stv)⟩ (mergeM stv [LkFn.config, .module] (fun f => (eval E (n + 2)).lk f opts key))
      (pure (bothValue stv ls' ms' key)) := by
    unfold bothValue
    rw [← refMerge_two]
    exact inner
  unfold forData
  rw [bind_ok (show view s = some (.ok s.v, s) from rfl), if_neg (by rw [(show s.v.ic.mode = .top ∧ _ from hs.within).1]; simp)]
  unfold withCopy
  rw [hs.on]
  dsimp only [explForData]
  generalize hs' : ({ s with v := { s.v with ic := { s.v.ic with mode := .data } }, on := none } : St) = s'
  have hon : s'.on = none := by rw [← hs']
  rw [hnk, M.lift_ok_bind, Quiet.off_withNode hon, bind_def, setMergeStrategy_quiet opts _ s' hon, s1]
  dsimp only
  rw [hst]
  dsimp only
  generalize hu : ({ s' with v := { s'.v with ic := { s'.v.ic with luOpts := asMap (bothOptions ls (heeded key md) key), strategy := some stv } } } : St) = u
  have hus : Settled E sc site ⟨sc, .value (some stv)⟩ u := by
    rw [← hu, ← hs']
    exact ⟨rfl, hs.scope, hs.coh, ⟨rfl, rfl⟩, hs.configs, hs.parsed, hs.locked⟩
  have hlu : u.v.ic.luOpts = asMap (bothOptions ls (heeded key md) key) := by rw [← hu]
  obtain ⟨a, t, h1, hq', ht⟩ := inner u hus
  subst hq'
  have hc : lookupAndConvert E (currentStrategy >>= fun st => mergeM st [LkFn.config, .module] (fun f => (eval E (n + 2)).lk f opts key)) u =
      some (.ok (bothValue stv ls' ms' key), t) := by
    unfold lookupAndConvert
    rw [bind_ok (show view u = some (.ok u.v, u) from rfl), hlu, s2, M.lift_ok_bind]
    have : (currentStrategy >>= fun st => mergeM st [LkFn.config, .module] (fun f => (eval E (n + 2)).lk f opts key)) u =
        some (.ok (bothValue stv ls' ms' key), t) := by
      rw [bind_ok (show currentStrategy u = some (.ok stv, u) by
        unfold currentStrategy
        rw [bind_ok (show view u = some (.ok u.v, u) from rfl), show u.v.ic.strategy = some stv from hus.within.2]
        rfl)]
      exact h1
    rw [bind_ok (show maybeRedacted E none _ u = _ from this)]
    unfold convert
    cases bothValue stv ls' ms' key <;> rfl
  rw [hc]
  exact ⟨_, _, rfl, rfl, ⟨rfl, hs.scope, ht.coh, hs.within, ht.configs, ht.parsed, ht.locked⟩⟩

end

end Hiera
