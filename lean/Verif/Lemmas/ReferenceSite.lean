/- Resolving the configuration has the outcome of the reference (`Spec/Reference.lean`), and so has a lookup that starts with
nothing resolved. -/
import Verif.Lemmas.Reference
import Verif.Lemmas.ReferenceMono

set_option linter.unusedSectionVars false

set_option autoImplicit false

namespace Hiera
open Spec

/-- Conditions on states that depend only on what is remembered, and on the variables and what the lookup is for. -/
class Firm (E : outParam Env) (I : Ctx → St → Prop) : Prop extends AsMeant I where
  coh : ∀ {C s}, I C s → Coh E s.v.hashes
  keep : ∀ {C C' : Ctx} {s t : St}, I C s → C'.within = C.within → t.on = none →
    t.v.ic = { s.v.ic with scope := C'.scope } → Coh E t.v.hashes → t.v.configs = s.v.configs → t.v.parsed = s.v.parsed →
    t.v.locked = s.v.locked → I C' t

instance (E : Env) : Firm E (Inv E none) where
  coh h := h.coh
  keep h _ h1 h2 h3 h4 h5 h6 := ⟨h1, by rw [h2], h3, fun _ h => (nomatch h), fun h => (nomatch h), fun _ =>
    ⟨by rw [h4]; exact (h.un rfl).1, by rw [h5]; exact (h.un rfl).2, by rw [h6]; exact (h.un rfl).3⟩⟩

theorem Firm.update {E : Env} {I : Ctx → St → Prop} [Firm E I] {C : Ctx} {α β : Type} {Q : α → β → Prop} {m : M α} {x : Ans β}
    {f : View → View} (hf : ∀ v, (f v).ic = v.ic ∧ (f v).hashes = v.hashes ∧ (f v).configs = v.configs ∧ (f v).parsed = v.parsed ∧
      (f v).locked = v.locked) (h : SimG I C Q m x) : SimG I C Q (update f >>= fun _ => m) x := by
  intro s hs
  rw [bind_ok (show Hiera.update f s = some (.ok (), { s with v := f s.v }) from rfl)]
  obtain ⟨h1, h2, h3, h4, h5⟩ := hf s.v
  exact h _ (Firm.keep hs rfl (show s.on = none from AsMeant.on hs)
    (by show (f s.v).ic = _; rw [h1, ← show s.v.ic.scope = C.scope from AsMeant.scope hs])
    (by show Coh E (f s.v).hashes; rw [h2]; exact Firm.coh hs) h3 h4 h5)

section
variable {E : Env} {I : Ctx → St → Prop} [Firm E I] {S : Scope → Prop} {rec : Rec} {r : Ref} (hr : RecSimG I S rec r) {C : Ctx}
include hr E

theorem aliasOf_false (ts : List Tok) : aliasOf false ts = none := by
  cases h : aliasOf false ts with
  | none => rfl
  | some mx =>
    obtain ⟨e, _, _, hg, hal⟩ := aliasOf_some h
    have : mx.1 ≠ .scope := by intro hm; rw [hm] at hal; cases hal
    exact nomatch allow_of_lookup hg this

theorem interpCfg_sim (s : Str) : SimH I C (interpCfg E rec s) (refCfg E r C s) := by
  intro u hu
  have h := interpStr_sim (E := E) hr (C := C) s false (fun h => nomatch h) u hu
  unfold refStr at h
  rw [aliasOf_false hr] at h
  dsimp only at h
  unfold interpCfg
  show FollowsG _ _ _ _ (refText E r C false (tokens s))
  match hx : refText E r C false (tokens s), h with
  | none, h => exact bind_none h
  | some (.panic e), ⟨t, h⟩ => exact ⟨t, bind_panic h⟩
  | some (.ok b), ⟨a, t, h, q, ht⟩ =>
    refine ⟨b, t, ?_, rfl, ht⟩
    rw [bind_ok h, q.1]
    rfl

theorem resolveFunction_sim (d : Option Entry) (e : Entry) :
    SimH I C (resolveFunction E rec d e) (refFunction E r C d e) := by
  unfold resolveFunction refFunction
  rcases e.function with _ | ⟨k, n⟩
  · rcases d with _ | d
    · exact .pure rfl
    · dsimp only
      rcases d.function with _ | f
      · exact .fail _
      · exact .pure rfl
  · exact .bindE (interpCfg_sim hr n) (fun _ => .pure rfl)

theorem dir_sim (own : Str) (dflt : Option Str) (builtIn : Str) :
    SimH I C (if own = [] then (pure (dflt.getD builtIn) : M Str) else interpCfg E rec own) (refDir E r C own dflt builtIn) := by
  unfold refDir
  split
  · exact .pure rfl
  · exact interpCfg_sim hr own

omit hr in
theorem dataDir_eq (rec : Rec) (d : Option Entry) (e : Entry) : resolveDataDir E rec d e =
    (resolveFunction E rec d e >>= fun e =>
      (if e.dataDir = [] then (pure ((d.map (·.dataDir)).getD E.cfg.defaultDataDir) : M Str) else interpCfg E rec e.dataDir) >>= fun p =>
      pure { e with dataDir := p }) := by
  unfold resolveDataDir
  congr 1
  funext e
  split
  · cases d <;> rfl
  · rfl

omit hr in
theorem pluginDir_eq (rec : Rec) (d : Option Entry) (e : Entry) : pluginDirOf E rec d e =
    (if e.pluginDir = [] then (pure ((d.map (·.pluginDir)).getD E.cfg.defaultPluginDir) : M Str) else interpCfg E rec e.pluginDir) := by
  unfold pluginDirOf
  split
  · cases d <;> rfl
  · rfl

theorem resolveOptions_sim (d : Option Entry) (e : Entry) :
    SimG I C (fun a b => a = { e with options := b }) (resolveOptions E rec d e) (refOptions E r C d e) := by
  unfold resolveOptions refOptions
  rcases ho : e.options with _ | os
  · cases d <;> exact .pure rfl
  · rcases os with _ | ⟨o, os⟩
    · exact .pure (by rw [← ho])
    · refine .bindE (interpolate_sim hr false (fun h => nomatch h) _) (fun v => ?_)
      rcases v with _ | v
      · exact .fail _
      · cases v <;> first | exact .fail _ | exact .pure rfl

theorem withScope_sim {α β : Type} {Q : α → β → Prop} {m : M α} {x : Ans β} (sc : Scope)
    (h : SimG I { C with scope := sc } Q m x) : SimG I C Q (doWithScope sc m) x := by
  intro s hs
  unfold doWithScope
  rw [bind_ok (show view s = some (.ok s.v, s) from rfl),
    bind_ok (show update (fun w => { w with ic := { w.ic with scope := sc } }) s =
      some (.ok (), { s with v := { s.v with ic := { s.v.ic with scope := sc } } }) from rfl)]
  have h1 := h { s with v := { s.v with ic := { s.v.ic with scope := sc } } }
    (Firm.keep hs rfl (show s.on = none from AsMeant.on hs) rfl (show Coh E s.v.hashes from Firm.coh hs) rfl rfl rfl)
  match x, h1 with
  | none, h1 => exact bind_none h1
  | some (.panic e), ⟨t, h1⟩ => exact ⟨t, bind_panic h1⟩
  | some (.ok b), ⟨a, t, h1, q, ht⟩ =>
    refine ⟨a, { t with v := { t.v with ic := { t.v.ic with scope := s.v.ic.scope } } }, ?_, q, ?_⟩
    · rw [bind_ok h1]
      rfl
    · exact Firm.keep ht rfl (show t.on = none from AsMeant.on ht) (by rw [← show s.v.ic.scope = C.scope from AsMeant.scope hs])
        (show Coh E t.v.hashes from Firm.coh ht) rfl rfl rfl

theorem resolveMapped_sim (key t dir : Str) : ∀ vs, SimH I C (resolveMapped E rec key t dir vs) (refMapped E r C key t dir vs)
  | [] => .pure rfl
  | v :: vs => by
    unfold resolveMapped refMapped
    refine .view (fun w hw => ?_)
    rw [hw]
    refine .bind (Q := fun a b => a = join dir b) (withScope_sim hr _ ?_) (fun a b e => ?_)
    · exact .mapL (interpCfg_sim hr t) (fun a b e => by rw [e])
    · subst e
      exact .bindE (resolveMapped_sim key t dir vs) (fun ls => .pure rfl)

theorem resolveLoc_sim (dir : Str) (l : Loc) : SimH I C (l.resolve E rec dir) (refLoc E r C dir l) := by
  cases l with
  | path o _ _ => exact .bindE (interpCfg_sim hr _) (fun _ => .pure rfl)
  | glob o => exact .bindE (interpCfg_sim hr _) (fun _ => .pure rfl)
  | uri o _ => exact .bindE (interpCfg_sim hr _) (fun _ => .pure rfl)
  | mapped src key t =>
    refine .bindE (interpInScope_sim hr src false (fun h => nomatch h)) (fun v => ?_)
    rcases v with _ | v
    · exact .pure rfl
    · cases v <;> first | exact resolveMapped_sim hr _ _ _ _ | exact .pure rfl

theorem resolveLocs_sim (dir : Str) : ∀ ls, SimH I C (resolveLocs E rec dir ls) (refLocs E r C dir ls)
  | [] => .pure rfl
  | l :: ls => .bindE (resolveLoc_sim hr dir l) (fun _ => .bindE (resolveLocs_sim dir ls) (fun _ => .pure rfl))

theorem resolveLocations_sim (e : Entry) : SimG I C (fun a b => a = { e with locations := b }) (resolveLocations E rec e)
    (refLocations E r C (seenFrom e.root e.dataDir) e.locations) := by
  unfold resolveLocations refLocations
  rcases hl : e.locations with _ | ls
  · exact .pure (by rw [← hl])
  · exact .bindE (resolveLocs_sim hr _ ls) (fun _ => .pure rfl)

theorem entryResolve_sim (d : Option Entry) (e : Entry) : SimH I C (e.resolve E rec d) (refResolve E r C d e) := by
  unfold Entry.resolve refResolve
  refine .bindE (resolveFunction_sim hr d e) (fun e => ?_)
  rw [dataDir_eq, M.bind_assoc]
  refine .bindE (resolveFunction_sim hr d e) (fun e => ?_)
  rw [M.bind_assoc]
  refine .bindE (dir_sim hr _ _ _) (fun dir => ?_)
  rw [M.pure_bind]
  unfold resolvePluginDir
  rw [M.bind_assoc, pluginDir_eq]
  refine .bindE (dir_sim hr _ _ _) (fun pdir => ?_)
  rw [M.pure_bind]
  have ho := resolveOptions_sim hr (C := C) d { { e with dataDir := dir } with pluginDir := seenFrom e.root pdir }
  refine .bind ho (fun a b h => ?_)
  subst h
  exact .mapR (resolveLocations_sim hr _) (fun a b h => h)

theorem newProvider_sim {α : Type} {β : Type} {Q : α → β → Prop} (e : Entry) {f : Prov → M α} {x : Ans β}
    (h : ∀ p, p.entry = e → SimG I C Q (f p) x) : SimG I C Q (newProvider e >>= f) x := by
  unfold newProvider
  rw [M.bind_assoc]
  refine .view (fun v _ => ?_)
  rw [M.bind_assoc]
  refine Firm.update (fun _ => ⟨rfl, rfl, rfl, rfl, rfl⟩) ?_
  rw [M.pure_bind]
  exact h _ rfl

theorem loop_sim (d : Entry) : ∀ es, SimG I C (fun ps b => ps.map Prov.entry = b) (createProvidersLoop E rec d es) (refResolveAll E r C d es)
  | [] => .pure rfl
  | e :: es => by
    unfold createProvidersLoop refResolveAll
    refine .bindE (entryResolve_sim hr (some d) e) (fun a => newProvider_sim hr a (fun p hp => ?_))
    refine .bind (loop_sim d es) (fun ps b h => .pure ?_)
    rw [List.map_cons, h, hp]

theorem createProviders_sim (c : Cfg) (es : List Entry) :
    SimG I C (fun ps b => ps.map Prov.entry = b) (createProviders E rec c es) (refLevels E r C c es) :=
  .bindE (entryResolve_sim hr none _) (fun d => loop_sim hr d es)

theorem forConfig_sim {α β : Type} {Q : α → β → Prop} {m : M α} {x : Ans β} (h : SimG I C Q m x) : SimG I C Q (forConfig m) x := by
  intro s hs
  unfold forConfig
  rw [if_pos (by rw [show s.on = none from AsMeant.on hs]; rfl)]
  exact h s hs

end

section
variable {E : Env} {S : Scope → Prop} {rec : Rec} {r : Ref} (hr : RecSim E none S rec r) {C : Ctx}
include hr

theorem forLookupOptions_sim {α β : Type} {Q : α → β → Prop} {m : M α} {x : Ans β} (h : SimQ E none C Q m x) :
    SimQ E none C Q (forLookupOptions m) x := by
  intro s hs
  unfold forLookupOptions
  rw [bind_ok (show view s = some (.ok s.v, s) from rfl)]
  split
  · exact h s hs
  · unfold withCopy
    have h1 := h { s with v := { s.v with ic := { s.v.ic with mode := .lookupOptions } }, on := explForOptions s.on }
      ⟨by show explForOptions s.on = none; rw [hs.on]; rfl, hs.scope, hs.coh, fun _ h => (nomatch h), fun h => (nomatch h),
        fun hn => ⟨(hs.un hn).1, (hs.un hn).2, (hs.un hn).3⟩⟩
    match x, h1 with
    | none, h1 => rw [h1]
    | some (.panic e), ⟨t, h1⟩ => rw [h1]; exact ⟨_, rfl⟩
    | some (.ok b), ⟨a, t, h1, q, ht⟩ =>
      rw [h1]
      exact ⟨a, _, rfl, q, ⟨hs.on, hs.scope, ht.coh, fun _ h => (nomatch h), fun h => (nomatch h), fun hn => ⟨(ht.un hn).1, (ht.un hn).2, (ht.un hn).3⟩⟩⟩

theorem loadConfig_sim : SimE E none C (loadConfig E E.configPath) (Ans.of (newCfg E.cfg E.configPath (E.readYaml E.configPath))) := by
  intro s hs
  have hu := hs.un rfl
  unfold loadConfig
  rw [bind_ok (show view s = some (.ok s.v, s) from rfl)]
  cases ha : (assoc E.configPath s.v.parsed).or (elsewhere E s.v E.configPath) with
  | some c =>
    rw [show newCfg E.cfg E.configPath (E.readYaml E.configPath) = .ok c from
      (Option.or_eq_some_iff.1 ha).elim (hu.parsed _ _) (fun h => elsewhere_ok h.2)]
    exact ⟨c, s, rfl, rfl, hs⟩
  | none =>
    dsimp only
    rw [if_neg (by rw [hu.locked]; simp)]
    rw [bind_ok (show emit (.config E.configPath) s = some (.ok (), { s with v := { s.v with trace := s.v.trace ++ [.config E.configPath] } }) from rfl)]
    cases hc : newCfg E.cfg E.configPath (E.readYaml E.configPath) with
    | panic e => exact ⟨_, rfl⟩
    | ok c =>
      refine ⟨c, _, rfl, rfl, ⟨hs.on, hs.scope, hs.coh, fun _ h => (nomatch h), fun h => (nomatch h), fun _ => ⟨hu.cfg, ?_, hu.locked⟩⟩⟩
      intro p c' hp
      by_cases h : p = E.configPath
      · subst h
        have : assoc E.configPath ((E.configPath, c) :: s.v.parsed) = some c := if_pos rfl
        rw [show assoc E.configPath ((E.configPath, c) :: s.v.parsed) = some c' from hp] at this
        cases this
        exact hc
      · have : assoc p ((E.configPath, c) :: s.v.parsed) = assoc p s.v.parsed := if_neg h
        rw [show assoc p ((E.configPath, c) :: s.v.parsed) = some c' from hp] at this
        exact hu.parsed p c' this.symm

theorem resolve_sim (hF : ∀ e n f, loadFunction E e n = .ok (some (.key f)) → Suits E f) (hS : S C.scope) (c : Cfg) :
    SimQ E none C (fun rc x => rc.providers.map Prov.entry = x.entries ∧ rc.lookupOptions = x.options ∧ rc.moduleName = [])
      (resolve E rec c []) (refSite E r C c) := by
  unfold resolve refSite
  have h1 : SimQ E none C (fun (pd : List Prov × List Prov) b => pd.1.map Prov.entry = b)
      (forConfig (do
        let ps ← createProviders E rec c c.hierarchy
        let ds ← createProviders E rec c c.defaultHierarchy
        pure (ps, ds)))
      (refLevels E r C c c.hierarchy >>= fun es => refLevels E r C c c.defaultHierarchy >>= fun _ => pure es) :=
    forConfig_sim hr.toRecSimG (.bind (createProviders_sim hr.toRecSimG c _) (fun ps b h => .bind (createProviders_sim hr.toRecSimG c _) (fun _ _ _ => .pure h)))
  have e : (refLevels E r C c c.hierarchy >>= fun es => refLevels E r C c c.defaultHierarchy >>= fun _ =>
      refHierarchy E r C lookupOptionsKey (.deep []) es >>= fun lo => (pure ⟨es, asMap lo⟩ : Ans Site)) =
      ((refLevels E r C c c.hierarchy >>= fun es => refLevels E r C c c.defaultHierarchy >>= fun _ => pure es) >>= fun es =>
        refHierarchy E r C lookupOptionsKey (.deep []) es >>= fun lo => (pure ⟨es, asMap lo⟩ : Ans Site)) := by
    match refLevels E r C c c.hierarchy, refLevels E r C c c.defaultHierarchy with
    | none, _ => rfl
    | some (.panic _), _ => rfl
    | some (.ok _), none => rfl
    | some (.ok _), some (.panic _) => rfl
    | some (.ok _), some (.ok _) => rfl
  rw [e]
  refine .bind h1 (fun pd es h => ?_)
  refine .bindE (forLookupOptions_sim hr (.node _ ?_)) (fun lo => .pure ⟨h, rfl, rfl⟩)
  have := mergeHierarchy_sim hr hF hS lookupOptionsKey pd.1 (.deep [])
  rw [h] at this
  exact this
end

/-- From a state with nothing resolved, to resolve the configuration has the outcome of the reference. -/
def ConfigFollows (E : Env) (o : Option (Res RCfg × St)) (sc : Scope) (x : Ans Site) : Prop :=
  match x with
  | none => o = none
  | some (.ok b) => ∃ a t, o = some (.ok a, t) ∧ t.on = none ∧ t.v.ic.scope = sc ∧ Coh E t.v.hashes ∧ AtSite E b t
  | some (.panic e) => ∃ t, o = some (.panic e, t)

theorem ConfigFollows.none_iff {E : Env} {o : Option (Res RCfg × St)} {sc : Scope} {x : Ans Site} (h : ConfigFollows E o sc x) :
    o = none ↔ x = none := by
  match x, h with
  | none, h => exact ⟨fun _ => rfl, fun _ => h⟩
  | some (.ok b), ⟨a, t, h, _⟩ => rw [h]; simp
  | some (.panic e), ⟨t, h⟩ => rw [h]; simp

/-- What the configuration file says, resolved. -/
def refOpen (E : Env) (r : Ref) (C : Ctx) : Ans Site :=
  Ans.of (newCfg E.cfg E.configPath (E.readYaml E.configPath)) >>= refSite E r C

theorem config_follows {E : Env} (he : StatelessEnv E) {S : Scope → Prop} {rec : Rec} {r : Ref} (hr : RecSim E none S rec r)
    {C : Ctx} (hS : S C.scope) {s : St} (hs : Inv E none C s) :
    ConfigFollows E (config E rec E.configPath [] s) C.scope (refOpen E r C) := by
  have hp : (if E.configPath = [] then E.configPath else E.configPath) = E.configPath := by split <;> rfl
  have hu := hs.un rfl
  unfold config
  rw [hp, bind_ok (show view s = some (.ok s.v, s) from rfl), hu.cfg]
  dsimp only
  have h := SimG.bindE (loadConfig_sim hr (C := C)) (fun c => resolve_sim hr he.keyFn hS c) s hs
  unfold refOpen
  rw [show (loadConfig E E.configPath >>= fun c => resolve E rec c [] >>= fun rc => putConfig E.configPath rc >>= fun _ => (pure rc : M RCfg)) =
    ((loadConfig E E.configPath >>= fun c => resolve E rec c []) >>= fun rc => putConfig E.configPath rc >>= fun _ => pure rc) from
    (M.bind_assoc _ _ _).symm]
  match hx : (Ans.of (newCfg E.cfg E.configPath (E.readYaml E.configPath)) >>= refSite E r C), h with
  | none, h => exact bind_none h
  | some (.panic e), ⟨t, h⟩ => exact ⟨t, bind_panic h⟩
  | some (.ok x), ⟨rc, t, h, q, ht⟩ =>
    refine ⟨rc, { t with v := { t.v with configs := (E.configPath, rc) :: t.v.configs } }, ?_, ht.on, ht.scope, ht.coh, ⟨rc, ?_, q⟩⟩
    · rw [bind_ok h]; rfl
    · exact if_pos rfl

theorem config_le_succ (E : Env) (n : Nat) (s : St) (h : config E (eval E n) E.configPath [] s ≠ none) :
    config E (eval E (n + 1)) E.configPath [] s = config E (eval E n) E.configPath [] s := by
  cases hc : config E (eval E n) E.configPath [] s with
  | none => exact absurd hc h
  | some r => exact (Le.base.closed E Le.forConfig).config (eval_le E (Nat.le_succ n)) _ _ s r hc

/-- As long as resolving the configuration has no end, so has every lookup in it; and when it has one, there was none. -/
theorem open_follows {E : Env} (he : StatelessEnv E) (sc : Scope) (n : Nat) :
    (∀ C s, C.scope = sc → Inv E none C s → ConfigFollows E (config E (eval E n) E.configPath [] s) sc (refOpen E (ref E none n) C)) ∧
    ((∀ C s, C.scope = sc → Inv E none C s → config E (eval E n) E.configPath [] s = none) →
      RecSim E none (· = sc) (eval E n) (ref E none n)) := by
  induction n with
  | zero =>
    have h0 := RecSim.zero E none (· = sc)
    exact ⟨fun C s hC hs => hC ▸ config_follows he h0 hC hs, fun _ => h0⟩
  | succ n ih =>
    obtain ⟨ih1, ih2⟩ := ih
    by_cases hd : ∀ C s, C.scope = sc → Inv E none C s → config E (eval E n) E.configPath [] s = none
    · have h1 : RecSim E none (· = sc) (eval E (n + 1)) (ref E none (n + 1)) := .succ he (fun _ => hd) (ih2 hd)
      exact ⟨fun C s hC hs => hC ▸ config_follows he h1 hC hs, fun _ => h1⟩
    · have hs0 : ∃ C0 s0, C0.scope = sc ∧ Inv E none C0 s0 ∧ config E (eval E n) E.configPath [] s0 ≠ none := by
        by_contra hcon
        exact hd (fun C s hC hs => by_contra (fun h => hcon ⟨C, s, hC, hs, h⟩))
      obtain ⟨C0, s0, hC0, hi0, h0⟩ := hs0
      have some_ : ∀ C : Ctx, C.scope = sc → refOpen E (ref E none n) C ≠ none := by
        intro C hC hn
        have hi : Inv E none C s0 := ⟨hi0.on, by rw [hi0.scope, hC0, hC], hi0.coh, hi0.at_, fun h => (nomatch h), hi0.un⟩
        exact h0 ((ih1 C s0 hC hi).none_iff.2 hn)
      have more : ∀ C s, C.scope = sc → Inv E none C s → config E (eval E n) E.configPath [] s ≠ none := fun C s hC hs hn =>
        some_ C hC ((ih1 C s hC hs).none_iff.1 hn)
      refine ⟨fun C s hC hs => ?_, fun hall => absurd (hall C0 s0 hC0 hi0) ?_⟩
      · rw [config_le_succ E n s (more C s hC hs)]
        have : refOpen E (ref E none (n + 1)) C = refOpen E (ref E none n) C :=
          AnsLe.eq (.bind .rfl (fun c => refSite_le (ref_le E none n) C c)) (some_ C hC)
        rw [this]
        exact ih1 C s hC hs
      · rw [config_le_succ E n s0 h0]; exact h0

end Hiera
