/- Lookups end if data does not refer to itself: providers, lookup functions and lookups. -/
import Verif.Lemmas.Termination

set_option autoImplicit false

namespace Hiera
open Spec Value

variable {E : Env} {T : Str → Prop} {sc : Scope}

/-- The strings of values that there may be for a key. -/
def FromKey (E : Env) (T : Str → Prop) (sc : Scope) (r : Str) : Str → Prop := fun s => ¬T s → ∃ w, Occurs w s ∧ Source E T sc r w

theorem made_iff {r : Str} {v : Value} : Made E T sc r v ↔ Clean (FromKey E T sc r) v := Iff.rfl

theorem made_source {r : Str} {v : Value} (h : Source E T sc r v) : Clean (FromKey E T sc r) v :=
  fun _ hs _ => ⟨v, hs, h⟩

theorem made_clean {r : Str} {v : Value} (h : Clean T v) : Clean (FromKey E T sc r) v :=
  fun s hs hn => absurd (h s hs) hn

theorem cleanO_mono {p q : Str → Prop} (hpq : ∀ s, p s → q s) {v : Option Value} (h : CleanO p v) : CleanO q v :=
  fun x hx => clean_mono hpq (h x hx)

theorem made_options {r s : Str} (h : FromKey E T sc "lookup_options".toList s) : FromKey E T sc r s :=
  fun hn => let ⟨w, h1, h2⟩ := h hn; ⟨w, h1, .options h2⟩

theorem madeO_clean {r : Str} {v : Option Value} (h : CleanO T v) : CleanO (FromKey E T sc r) v :=
  cleanO_mono (fun _ h hn => absurd h hn) h

/-- Everything that a key needs is good. -/
def Ready (E : Env) (T : Str → Prop) (sc : Scope) (r : Str) : Prop := ∀ i, Needs E T sc (.key r) i → Good E T sc true i

/-- Asking a provider for a key ends. -/
def Provides (E : Env) (T : Str → Prop) (sc : Scope) (r : Str) : Prop :=
  ∀ k p loc, newKey r = .ok k → Runs E T sc (fun n => provLookup E (eval E n) p loc k) (CleanO (FromKey E T sc r))

theorem interpolate_made (hR : Regular E T sc) {r : Str} (hr : Ready E T sc r) {v : Value} (hv : Clean (FromKey E T sc r) v) :
    Runs E T sc (fun n => interpolate E (eval E n) true v) (CleanO T) := by
  refine (Runs.interpolate hR.inert hR.text (fun i hi => ?_)).post (fun o h => h ?_)
  · obtain ⟨s, ts, e, x, h1, h2, h3, h4⟩ := hi
    by_cases hs : T s
    · have := splits_unique h2 (splits_unmarked (hR.inert.unmarked hs))
      rw [this] at h3
      simp at h3
    · obtain ⟨w, hw, hsrc⟩ := hv s h1 hs
      exact hr i (.ref hsrc ⟨s, ts, e, x, hw, h2, h3, h4⟩)
  · intro s hs
    by_cases hts : T s
    · intro ts hsp
      rw [splits_unique hsp (splits_unmarked (hR.inert.unmarked hts)), ← List.append_nil (s.map _)]
      exact .text hts .nil
    · obtain ⟨w, hw, hsrc⟩ := hv s hs hts
      exact hR.keys r w hsrc s hw

/-! ### Lookup functions that do not look through a hierarchy -/

theorem Runs.putCache {key : Str} {x : Value}
    (h : ∀ es q y, key = "yaml::data".toList → x = .map es → Entries.getS es q = some y →
      ∃ es', DataMap E T sc es' ∧ Entries.getS es' q = some y) :
    Runs E T sc (fun _ => Hiera.putCache key x) (fun _ => True) := by
  refine update trivial (fun v hv => ⟨hv.scope, hv.locked, hv.hashes, fun es q y hm hq => ?_, hv.configs⟩)
  rcases List.mem_cons.1 hm with hm | hm
  · simp only [Prod.mk.injEq] at hm
    exact h es q y hm.1.symm hm.2.symm hq
  · exact hv.cache es q y hm hq

theorem Runs.runProg (hR : Regular E T sc) {r q : Str} (hr : Ready E T sc r) (hq : AskedAs r q) {f : Entries → Str → Prog}
    {opts : Entries} (hf : Custom E f) (p : Prog) (hp : Relation.ReflTransGen (Next T sc) (f opts q) p) :
    Runs E T sc (fun n => Hiera.runProg E (eval E n) p) (CleanO (FromKey E T sc r)) := by
  induction p with
  | ret v =>
    unfold Hiera.runProg
    refine pure (fun x hx => ?_)
    subst hx
    exact made_source (.custom hq hf (.inl hp))
  | panic e => unfold Hiera.runProg; exact panic
  | interpolate v k ih =>
    unfold Hiera.runProg
    refine bind (interpolate_made hR hr (made_source (.custom hq hf (.inr ⟨k, hp⟩)))) (fun x hx => ?_)
    exact ih x (hp.tail (.interpolate hx))
  | lookup key opts k ih =>
    unfold Hiera.runProg
    refine bind (lift (Q := fun kk => newKey key = .ok kk) (fun _ h => h)) (fun kk hkk => ?_)
    refine bind (hr _ (.fn hq hf ⟨key, opts, k, kk, hp, hkk, rfl⟩) rfl kk opts rfl) (fun x hx => ?_)
    exact ih x (hp.tail (.lookup hx))
  | explain t p ih =>
    unfold Hiera.runProg
    exact bind report (fun _ _ => ih (hp.tail .explain))
  | cache key x k ih =>
    unfold Hiera.runProg
    refine bind view (fun v _ => bind (putCache ?_) (fun _ _ => ih _ (hp.tail .cache)))
    intro es q' y _ hx hy
    subst hx
    exact ⟨es, .cached hf ⟨key, k, hp⟩, hy⟩
  | cachedValue key k ih =>
    unfold Hiera.runProg
    exact bind view (fun v _ => ih _ (hp.tail .cachedValue))
  | scopeGet key k ih =>
    unfold Hiera.runProg
    refine bind view (fun v hv => ih _ (hp.tail (.scopeGet ?_)))
    cases hs : v.ic.scope.get key with
    | none => exact .inr cleanO_none
    | some x =>
      rcases hv.scope _ _ hs with h | h
      · exact .inl h.symm
      · exact .inr (cleanO_some.2 h)

theorem fileData_ok {read : Str → FileRes} {opts es : Entries} (h : fileData E read opts = .ok es) :
    es = [] ∨ ∃ p, read p = .value (.map es) := by
  unfold fileData at h
  split at h
  · cases h
  · split at h
    · cases h; exact .inl rfl
    · cases h
    · rename_i hr; cases h; exact .inr ⟨_, hr⟩
    · cases h

theorem yaml_data {opts es : Entries} (h : fileData E E.readYaml opts = .ok es) {q : Str} {y : Value}
    (hy : Entries.getS es q = some y) : ∃ es', DataMap E T sc es' ∧ Entries.getS es' q = some y := by
  rcases fileData_ok h with rfl | ⟨p, hp⟩
  · cases hy
  · exact ⟨es, .yaml hp, hy⟩

theorem json_data {opts es : Entries} (h : fileData E E.readJson opts = .ok es) {q : Str} {y : Value}
    (hy : Entries.getS es q = some y) : ∃ es', DataMap E T sc es' ∧ Entries.getS es' q = some y := by
  rcases fileData_ok h with rfl | ⟨p, hp⟩
  · cases hy
  · exact ⟨es, .json hp, hy⟩

theorem madeO_data {r q : Str} (hq : AskedAs r q) {es : Entries}
    (h : ∀ y, Entries.getS es q = some y → ∃ es', DataMap E T sc es' ∧ Entries.getS es' q = some y) :
    CleanO (FromKey E T sc r) (Entries.getS es q) := by
  intro y hy
  obtain ⟨es', h1, h2⟩ := h y hy
  exact made_source (.data hq h1 h2)

theorem Runs.yamlLookup {r q : Str} (hq : AskedAs r q) :
    Runs E T sc (fun _ => Hiera.yamlLookup E q) (CleanO (FromKey E T sc r)) := by
  unfold Hiera.yamlLookup
  refine bind view (fun v hv => ?_)
  split
  · rename_i es hes
    exact pure (madeO_data hq (fun y hy => hv.cache es q y (assoc_mem hes) hy))
  · exact panic
  · refine bind (lift (Q := fun es => fileData E E.readYaml _ = .ok es) (fun _ h => h)) (fun es hes => ?_)
    refine bind (putCache (fun es' q' y _ h1 h2 => ?_)) (fun _ _ => pure (madeO_data hq (fun y hy => yaml_data hes hy)))
    cases h1
    exact yaml_data hes h2

theorem madeO_scope {r q : Str} (hq : AskedAs r q) {v : View} (hv : Usable E T sc v) :
    CleanO (FromKey E T sc r) (v.ic.scope.get q) := by
  intro x hx
  rcases hv.scope _ _ hx with h | h
  · exact made_source (.scope hq h)
  · exact made_clean h

theorem madeO_env {r q : Str} (hq : AskedAs r q) : CleanO (FromKey E T sc r) (envLookup E q) :=
  fun _ hx => made_source (.env hq hx)

/-- Calls of lookup functions that do not look through a hierarchy. -/
theorem Runs.callBasic (hR : Regular E T sc) {r q : Str} (hr : Ready E T sc r) (hq : AskedAs r q) {f : LkFn}
    (hf : f ≠ .config ∧ f ≠ .mux ∧ f ≠ .module) (hc : ∀ g, f = .custom g → Custom E g) (opts : Entries) :
    Runs E T sc (fun n => callLk E (eval E n) f opts q) (CleanO (FromKey E T sc r)) := by
  cases f with
  | config => exact absurd rfl hf.1
  | mux => exact absurd rfl hf.2.1
  | module => exact absurd rfl hf.2.2
  | env => unfold callLk; exact pure (madeO_env hq)
  | scope => unfold callLk; exact bind view (fun v hv => pure (madeO_scope hq hv))
  | yaml => unfold callLk; exact yamlLookup hq
  | custom g => unfold callLk; exact runProg hR hr hq (hc g rfl) _ .refl
  | notFunction => unfold callLk; exact pure cleanO_none

/-! ### Data providers -/

theorem Runs.reportResult {p : Str → Prop} (k : Str) {v : Option Value} (hv : CleanO p v) :
    Runs E T sc (fun _ => Hiera.reportResult k v) (CleanO p) := by
  unfold Hiera.reportResult
  cases v with
  | none => exact bind report (fun _ _ => pure hv)
  | some x => exact bind report (fun _ _ => pure hv)

theorem Runs.loadOnce (p : Prov) (m : Str) :
    Runs E T sc (fun _ => Hiera.loadOnce E p m) (fun f => ∀ g, f = some g → Loads E g) := by
  unfold Hiera.loadOnce
  refine bind (lift (Q := fun f => ∀ g, f = some g → Loads E g) ?_) (fun f hf => ?_)
  · rintro a ha g rfl
    unfold loadFunction at ha
    split at ha
    · rename_i h; cases ha; exact ⟨m, .inl h⟩
    · split at ha
      · exact ⟨m, .inr ⟨_, ha⟩⟩
      · cases ha
  · refine bind view (fun v _ => ite (fun _ => pure hf) (fun _ => ?_))
    refine bind (Q := fun _ => True) ?_ (fun _ _ => bind (update (Q := fun _ => True) trivial (fun _ h => ?_)) (fun _ _ => pure hf))
    · unfold reportUnresolved
      cases f with
      | none => exact report
      | some _ => exact pure trivial
    · exact ⟨h.scope, h.locked, h.hashes, h.cache, h.configs⟩

/-- A map whose values are data that there is. -/
def IsData (E : Env) (T : Str → Prop) (sc : Scope) (es : Entries) : Prop :=
  ∀ q y, Entries.getS es q = some y → ∃ es', DataMap E T sc es' ∧ Entries.getS es' q = some y

theorem isData_nil : IsData E T sc [] := fun _ _ h => by cases h

theorem Runs.callHash (p : Prov) (m : Str) (opts : Entries) :
    Runs E T sc (fun _ => Hiera.callHash E p m opts) (IsData E T sc) := by
  unfold Hiera.callHash
  refine ite (fun _ => ?_) (fun _ => ite (fun _ => ?_) (fun _ => ?_))
  · exact bind emit (fun _ _ => lift (fun es h q y hy => yaml_data h hy))
  · exact bind emit (fun _ _ => lift (fun es h q y hy => json_data h hy))
  · refine bind (loadOnce p m) (fun f hf => ?_)
    split
    · rename_i g
      refine bind emit (fun _ _ => bind (lift (Q := fun o => g opts = .ok o) (fun _ h => h)) (fun o ho => ?_))
      split
      · rename_i es
        exact pure (fun q y hy => ⟨es, .hash (hf _ rfl) ho, hy⟩)
      · exact pure isData_nil
    · exact panic
    · exact pure isData_nil

theorem Runs.dataHash (p : Prov) (m : Str) (loc : Option Loc) :
    Runs E T sc (fun _ => Hiera.dataHash E p m loc) (IsData E T sc) := by
  unfold Hiera.dataHash
  refine bind view (fun v hv => ?_)
  split
  · rename_i h hh
    exact pure (fun q y hy => hv.hashes _ _ q y (assoc_mem hh) hy)
  · refine bind (callHash p m _) (fun h hh => ?_)
    refine bind (update (Q := fun _ => True) trivial (fun w hw => ?_)) (fun _ _ => pure hh)
    refine ⟨hw.scope, hw.locked, fun i es q y hm hy => ?_, hw.cache, hw.configs⟩
    rcases List.mem_cons.1 hm with hm | hm
    · cases hm; exact hh q y hy
    · exact hw.hashes i es q y hm hy

theorem provides (hR : Regular E T sc) {r : Str} (hr : Ready E T sc r) : Provides E T sc r := by
  intro k p loc hk
  have hq : AskedAs r k.root := .inr ⟨k, hk, rfl⟩
  unfold provLookup
  split
  · unfold dataHashLookup
    refine Runs.bind (Runs.dataHash _ _ _) (fun h hh => ?_)
    cases hg : Entries.getS h k.root with
    | none => exact Runs.reportResult _ cleanO_none
    | some x =>
      obtain ⟨es', h1, h2⟩ := hh _ _ hg
      refine Runs.bind (interpolate_made hR hr (made_source (.data hq h1 h2))) (fun o ho => ?_)
      exact Runs.reportResult _ (madeO_clean ho)
  · unfold dataDigLookup
    refine Runs.bind (Runs.loadOnce _ _) (fun f hf => ?_)
    split
    · rename_i g
      refine Runs.bind Runs.emit (fun _ _ => ?_)
      refine Runs.bind (Runs.lift (Q := fun o => g k.parts = .ok o) (fun _ h => h)) (fun o ho => ?_)
      cases o with
      | none => exact Runs.reportResult _ cleanO_none
      | some x =>
        exact Runs.bind Runs.report (fun _ _ => Runs.pure (cleanO_some.2 (made_source (.dig hk (hf _ rfl) ho))))
    · exact Runs.panic
    · exact Runs.reportResult _ cleanO_none
  · unfold lookupKeyLookup
    refine Runs.ite (fun _ => ?_) (fun _ => Runs.ite (fun _ => ?_) (fun _ => ?_))
    · exact Runs.bind Runs.emit (fun _ _ => Runs.reportResult _ (madeO_env hq))
    · exact Runs.bind Runs.emit (fun _ _ => Runs.bind Runs.view (fun v hv => Runs.reportResult _ (madeO_scope hq hv)))
    · refine Runs.bind (Runs.loadOnce _ _) (fun f hf => ?_)
      split
      · rename_i g
        refine Runs.bind Runs.emit (fun _ _ => Runs.bind ?_ (fun o ho => Runs.reportResult _ ho))
        refine Halts.succ (Runs.callBasic hR hr hq (hR.entries g (hf _ rfl)) ?_ _) (fun n => rfl)
        rintro g' rfl
        exact .inl (hf _ rfl)
      · exact Runs.panic
      · exact Runs.reportResult _ cleanO_none
  · exact Runs.panic

theorem Runs.mergeLocations {r : Str} (hp : Provides E T sc r) {k : Key} (hk : newKey r = .ok k) (st : Strategy) (p : Prov) :
    Runs E T sc (fun n => Hiera.mergeLocations E (eval E n) k st p) (CleanO (FromKey E T sc r)) := by
  have loc : ∀ l, Runs E T sc (fun n => invokeWithLocation E (eval E n) p k l) (CleanO (FromKey E T sc r)) := by
    intro l
    unfold invokeWithLocation
    exact withNode (ite (fun _ => hp k p _ hk) (fun _ => bind report (fun _ _ => pure cleanO_none)))
  unfold Hiera.mergeLocations
  refine withNode ?_
  split
  · exact hp k p _ hk
  · exact pure cleanO_none
  · exact loc _
  · exact mergeM _ _ (fun l _ => loc l)

theorem Runs.mergeHierarchy {r : Str} (hp : Provides E T sc r) {k : Key} (hk : newKey r = .ok k) (st : Strategy) (ps : List Prov) :
    Runs E T sc (fun n => Hiera.mergeHierarchy E (eval E n) k ps st) (CleanO (FromKey E T sc r)) := by
  unfold Hiera.mergeHierarchy
  exact mergeM _ _ (fun p _ => mergeLocations hp hk st p)

/-! ### Configurations -/

/-- The lookup options of a configuration. -/
def OptionsMade (E : Env) (T : Str → Prop) (sc : Scope) (rc : RCfg) : Prop :=
  ∀ lo, rc.lookupOptions = some lo → Clean (FromKey E T sc "lookup_options".toList) (.map lo)

theorem Runs.loadConfig (path : Str) : Runs E T sc (fun _ => Hiera.loadConfig E path) (fun _ => True) := by
  unfold Hiera.loadConfig
  refine bind view (fun v hv => ?_)
  split
  · exact pure trivial
  · refine ite (fun h => ?_) (fun _ => bind emit (fun _ _ => ?_))
    · rw [hv.locked] at h; cases h
    · split
      · exact bind (update (Q := fun _ => True) trivial (fun _ h => ⟨h.scope, h.locked, h.hashes, h.cache, h.configs⟩))
          (fun _ _ => pure trivial)
      · intro s hs
        exact ⟨0, .panic _, _, fun n _ => rfl, fun a ha => by cases ha⟩

theorem asMap_some {v : Option Value} {m : Entries} (h : asMap v = some m) : v = some (.map m) := by
  unfold asMap at h
  split at h
  · cases h; rfl
  · cases h

theorem Runs.config (hR : Regular E T sc) (hg : ∀ i, Good E T sc false i)
    (hlo : Provides E T sc "lookup_options".toList) (path m : Str) :
    Runs E T sc (fun n => Hiera.config E (eval E n) path m) (OptionsMade E T sc) := by
  unfold Hiera.config
  refine bind view (fun v hv => ?_)
  split
  · rename_i rc hrc
    exact pure (fun lo h => hv.configs _ _ lo (assoc_mem hrc) h)
  · refine bind (loadConfig _) (fun c _ => bind (Q := OptionsMade E T sc) ?_ (fun rc hrc => ?_))
    · unfold resolve
      refine bind (forConfig (Q := fun _ => True) ?_) (fun pd _ => ?_)
      · exact bind (createProviders hR.inert hR.text hg _ _) (fun _ _ =>
          bind (createProviders hR.inert hR.text hg _ _) (fun _ _ => pure trivial))
      · refine bind (forLookupOptions (withNode (mergeM (p := FromKey E T sc "lookup_options".toList) _ _
          (fun p _ => mergeLocations hlo (by decide) _ p)))) (fun o ho => pure (fun lo h => ?_))
        have := asMap_some h
        subst this
        exact cleanO_some.1 ho
    · refine bind (update (Q := fun _ => True) trivial (fun w hw => ?_)) (fun _ _ => pure hrc)
      refine ⟨hw.scope, hw.locked, hw.hashes, hw.cache, fun q rc' lo hm h => ?_⟩
      rcases List.mem_cons.1 hm with hm | hm
      · cases hm; exact hrc lo h
      · exact hw.configs q rc' lo hm h

theorem optionsOf_made {rc : RCfg} (h : OptionsMade E T sc rc) (k : Key) :
    CleanO (FromKey E T sc "lookup_options".toList) ((rc.optionsOf k).map .map) := by
  intro x hx
  obtain ⟨m, hm, rfl⟩ := Option.map_eq_some_iff.1 hx
  unfold RCfg.optionsOf at hm
  split at hm
  · cases hm
  · rename_i lo hlo
    split at hm
    · exact clean_getS (h lo hlo) (asMap_some hm)
    · cases hm

/-! ### Conversions -/

/-- Usable, and with the given lookup options. -/
def WithOpts (E : Env) (T : Str → Prop) (sc : Scope) (lo : Option Entries) (v : View) : Prop :=
  Usable E T sc v ∧ v.ic.luOpts = lo

theorem Halts.setMergeStrategy (cli : Option Value) (lo : Option Entries) :
    Halts (Usable E T sc) (fun _ => Hiera.setMergeStrategy cli lo) (fun _ => WithOpts E T sc lo) := by
  unfold Hiera.setMergeStrategy
  have h1 : Runs E T sc (fun _ => mergeOption cli lo) (fun _ => True) := by
    unfold mergeOption
    cases cli with
    | some o => exact Runs.bind Runs.report (fun _ _ => Runs.pure trivial)
    | none =>
      cases lo with
      | none => exact Runs.pure trivial
      | some m =>
        dsimp only
        cases Entries.getS m "merge".toList with
        | none => exact Runs.pure trivial
        | some o => exact Runs.bind Runs.report (fun _ _ => Runs.pure trivial)
  refine bind h1 (fun o => ?_)
  refine bind (Q := fun _ => WithOpts E T sc lo) (update (fun v hv => ⟨hv.1.withIc rfl, rfl⟩)) (fun _ => ?_)
  refine bind (Q := fun _ => WithOpts E T sc lo) (lift (fun v a hv _ => hv)) (fun st => ?_)
  exact update (fun v hv => ⟨hv.1.withIc rfl, hv.2⟩)

theorem extractConversion_args {p : Str → Prop} {lo : Option Entries} (hlo : CleanO p (lo.map .map)) {t : Nat} {as : Option (List Value)}
    (h : extractConversion E lo = .ok (some (t, as))) : ∀ a ∈ as.getD [], Clean p a := by
  have arr : ∀ m es, lo = some m → Entries.getS m "convert_to".toList = some (.arr es) → ∀ a ∈ es, Clean p a := by
    rintro m es rfl he
    exact clean_arr.1 (clean_getS (hlo _ rfl) he)
  have typed : ∀ (x : Str) (as' : Option (List Value)),
      (E.parseType x).bind (fun t => Res.ok (some (t, as'))) = .ok (some (t, as)) → as = as' := by
    intro x as' hx
    cases hp : E.parseType x with
    | panic e => rw [hp] at hx; cases hx
    | ok t' => rw [hp] at hx; cases hx; rfl
  unfold extractConversion at h
  split at h
  · cases h
  · rename_i m
    split at h
    · cases h
    · cases h
    · rw [typed _ _ h]; intro a ha; cases ha
    · rename_i x a as' hes
      rw [typed _ _ h]
      intro b hb
      exact arr m _ rfl hes b (List.mem_cons_of_mem _ hb)
    · rw [typed _ _ h]; intro a ha; cases ha
    · cases h

theorem convert_made {r : Str} {v : Option Value} (hv : CleanO (FromKey E T sc r) v) {c : Option (Nat × Option (List Value))}
    (hc : ∀ t as, c = some (t, as) → ∀ a ∈ as.getD [], Clean (FromKey E T sc r) a) {y : Option Value}
    (h : convert E v c = .ok y) : CleanO (FromKey E T sc r) y := by
  unfold convert at h
  split at h
  · rename_i x t as
    cases hn : E.newValue t x as with
    | panic e => rw [hn] at h; cases h
    | ok z =>
      rw [hn] at h
      cases h
      have hall : ∀ a ∈ x :: as.getD [], ∀ s, Occurs a s → ¬T s → ∃ w, Occurs w s ∧ Source E T sc r w := by
        intro a ha
        rcases List.mem_cons.1 ha with rfl | ha
        · exact cleanO_some.1 hv
        · exact hc t as rfl a ha
      have : ∀ s, ∃ w, (∃ a ∈ x :: as.getD [], Occurs a s ∧ ¬T s) → Occurs w s ∧ Source E T sc r w := by
        intro s
        by_cases hs : ∃ a ∈ x :: as.getD [], Occurs a s ∧ ¬T s
        · obtain ⟨a, ha, h1, h2⟩ := hs
          obtain ⟨w, hw⟩ := hall a ha s h1 h2
          exact ⟨w, fun _ => hw⟩
        · exact ⟨.null, fun h => absurd h hs⟩
      obtain ⟨w, hw⟩ := Classical.axiomOfChoice this
      exact cleanO_some.2 (made_source (.conv w (fun a ha s h1 h2 => (hw s ⟨a, ha, h1, h2⟩).1)
        (fun a ha s h1 h2 => (hw s ⟨a, ha, h1, h2⟩).2) hn))
  · cases h; exact hv

theorem Halts.lookupAndConvert {r : Str} {lo : Option Entries} (hlo : CleanO (FromKey E T sc r) (lo.map .map))
    {fn : Nat → M (Option Value)} (hfn : Runs E T sc fn (CleanO (FromKey E T sc r))) :
    Halts (WithOpts E T sc lo) (fun n => Hiera.lookupAndConvert E (fn n))
      (fun a v => Usable E T sc v ∧ CleanO (FromKey E T sc r) a) := by
  unfold Hiera.lookupAndConvert
  refine bind view (fun v => assume (p := v.ic.luOpts = lo) (fun w h => h.1.2) (fun hv => ?_))
  have : Runs E T sc (fun n => do
      let c ← Hiera.lift (extractConversion E v.ic.luOpts)
      let r ← maybeRedacted E c (fn n)
      Hiera.lift (convert E r c)) (CleanO (FromKey E T sc r)) := by
    rw [hv]
    refine Runs.bind (Runs.lift (Q := fun c => extractConversion E lo = .ok c) (fun _ h => h)) (fun c hc => ?_)
    refine Runs.bind (Q := CleanO (FromKey E T sc r)) ?_ (fun x hx => Runs.lift (fun y hy => ?_))
    · unfold maybeRedacted
      cases c with
      | none => exact hfn
      | some ta => exact Runs.ite (fun _ => Runs.doRedacted hfn) (fun _ => hfn)
    · refine convert_made hx (fun t as hc' => ?_) hy
      subst hc'
      exact extractConversion_args hlo hc
  exact this.weaken (fun w h => h.2 ▸ h.1.1) (fun _ _ h => h)

theorem Runs.strategyAndConvert {r : Str} {lo : Option Entries} (hlo : CleanO (FromKey E T sc r) (lo.map .map))
    {fn : Nat → M (Option Value)} (hfn : Runs E T sc fn (CleanO (FromKey E T sc r))) (cli : Option Value) :
    Runs E T sc (fun n => do
      Hiera.setMergeStrategy cli lo
      Hiera.lookupAndConvert E (fn n)) (CleanO (FromKey E T sc r)) :=
  Halts.bind (Halts.setMergeStrategy cli lo) (fun _ => Halts.lookupAndConvert hlo hfn)

theorem Runs.currentStrategy : Runs E T sc (fun _ => Hiera.currentStrategy) (fun _ => True) := by
  unfold Hiera.currentStrategy
  refine bind view (fun v _ => ?_)
  split
  · exact pure trivial
  · exact panic

/-! ### Lookup functions -/

section Lookup
variable (hR : Regular E T sc) (hg : ∀ i, Good E T sc false i) (hlo : Provides E T sc "lookup_options".toList)
include hR hg hlo

theorem Runs.configAt {r : Str} (hp : Provides E T sc r) (path : Str) (opts : Entries) (m : Str) :
    Runs E T sc (fun n => Hiera.configAt E (eval E n) path opts r m) (CleanO (FromKey E T sc r)) := by
  unfold Hiera.configAt
  refine bind (config hR hg hlo _ _) (fun rc hrc => ?_)
  refine bind (lift (Q := fun k => newKey r = .ok k) (fun _ h => h)) (fun k hk => ?_)
  have ho := cleanO_mono (fun _ => made_options (r := r)) (optionsOf_made hrc k)
  have hm : Runs E T sc (fun n => do
      let st ← Hiera.currentStrategy
      Hiera.mergeHierarchy E (eval E n) k rc.providers st) (CleanO (FromKey E T sc r)) :=
    bind currentStrategy (fun st _ => mergeHierarchy hp hk st _)
  refine bind view (fun v _ => ?_)
  cases v.ic.mode with
  | lookupOptions => exact pure ho
  | data => exact hm
  | top => exact forData (withNode (strategyAndConvert ho hm _))

theorem Runs.moduleLookup {r : Str} (hp : Provides E T sc r) (opts : Entries) :
    Runs E T sc (fun n => Hiera.moduleLookup E (eval E n) opts r) (CleanO (FromKey E T sc r)) := by
  unfold Hiera.moduleLookup
  split
  · exact pure cleanO_none
  · exact pure cleanO_none
  · refine bind (lift (Q := fun _ => True) (fun _ _ => trivial)) (fun mp _ => withNode ?_)
    cases mp with
    | none => exact bind report (fun _ _ => pure cleanO_none)
    | some cp => exact configAt hR hg hlo hp _ _ _

/-- Calls of lookup functions other than `MuxLookupKey`. -/
theorem Runs.callOther {r : Str} (hr : Ready E T sc r) (hp : Provides E T sc r) {f : LkFn} (hf : f ≠ .mux)
    (hc : ∀ g, f = .custom g → Custom E g) (opts : Entries) :
    Runs E T sc (fun n => callLk E (eval E n) f opts r) (CleanO (FromKey E T sc r)) := by
  by_cases h1 : f = .config
  · subst h1; unfold callLk; exact configAt hR hg hlo hp _ _ _
  by_cases h2 : f = .module
  · subst h2; unfold callLk; exact moduleLookup hR hg hlo hp _
  exact callBasic hR hr (.inl rfl) ⟨h1, hf, h2⟩ hc opts

theorem Runs.muxLookup {r : Str} (hr : Ready E T sc r) (hp : Provides E T sc r) (opts : Entries) :
    Runs E T sc (fun n => Hiera.muxLookup E (eval E n) opts r) (CleanO (FromKey E T sc r)) := by
  unfold Hiera.muxLookup
  split
  · exact pure cleanO_none
  · rename_i fs hfs
    have each : ∀ f ∈ fs, Runs E T sc (fun n => (eval E n).lk f opts r) (CleanO (FromKey E T sc r)) := by
      intro f hf
      refine Halts.succ (callOther hR hg hlo hr hp (f := f) ?_ ?_ opts) (fun n => rfl)
      · rintro rfl; exact hR.mux fs hfs hf
      · rintro g rfl; exact .inr (.inr ⟨fs, hfs, hf⟩)
    refine bind (forLookupOptions (mergeM _ _ each)) (fun lo hlo' => forData ?_)
    refine bind (lift (Q := fun _ => True) (fun _ _ => trivial)) (fun k _ => withNode ?_)
    refine strategyAndConvert ?_ (bind currentStrategy (fun st _ => mergeM _ _ each)) _
    intro x hx
    obtain ⟨m, hm, rfl⟩ := Option.map_eq_some_iff.1 hx
    have := asMap_some hm
    subst this
    exact cleanO_some.1 hlo'

theorem Runs.callTop {r : Str} (hr : Ready E T sc r) (hp : Provides E T sc r) (opts : Entries) :
    Runs E T sc (fun n => callLk E (eval E n) E.top opts r) (CleanO (FromKey E T sc r)) := by
  by_cases h : E.top = .mux
  · rw [h]; unfold callLk; exact muxLookup hR hg hlo hr hp opts
  · exact callOther hR hg hlo hr hp h (fun g hg => .inr (.inl hg)) opts

end Lookup

/-! ### Lookups -/

/-- Variables are good where functions may not be called. -/
theorem good_var_false (hR : Regular E T sc) {i : Referent} (h : Acc (fun j i => Needs E T sc i j) i) : Good E T sc false i := by
  induction h with
  | intro i _ ih =>
    cases i with
    | key r => intro h; cases h
    | var x =>
      intro w hw
      refine Halts.succ (Runs.post (Runs.interp hR.inert hR.text w (fun i hi => ih i (.var hw hi))) (fun r h => ?_)) (fun n => rfl)
      exact (h (hR.vars x w hw)).1

theorem good_of_acc (hR : Regular E T sc) (hv : ∀ x, Acc (fun j i => Needs E T sc i j) (.var x)) {i : Referent}
    (h : Acc (fun j i => Needs E T sc i j) i) : Good E T sc true i ∧ ∀ r, i = .key r → Provides E T sc r := by
  have hg : ∀ i, Good E T sc false i := by
    intro i
    cases i with
    | key r => intro h; cases h
    | var x => exact good_var_false hR (hv x)
  induction h with
  | intro i _ ih =>
    cases i with
    | var x =>
      refine ⟨fun w hw => ?_, fun r h => by cases h⟩
      refine Halts.succ (Runs.post (Runs.interp hR.inert hR.text w (fun i hi => (ih i (.var hw hi)).1)) (fun r h => ?_)) (fun n => rfl)
      exact (h (hR.vars x w hw)).1
    | key r =>
      have hr : Ready E T sc r := fun j hj => (ih j hj).1
      have hp : Provides E T sc r := provides hR hr
      refine ⟨fun _ k opts hk => ?_, fun r' h => by cases h; exact hp⟩
      subst hk
      refine Halts.succ (m := fun n => lookup E (eval E n) k opts) ?_ (fun n => rfl)
      unfold lookup
      refine Runs.ite (fun _ => ?_) (fun hne => ?_)
      · exact Runs.withNode (Runs.bind Runs.report (fun _ _ => Runs.pure cleanO_none))
      · have hlo := (ih _ (.options hne)).2 _ rfl
        refine Runs.bind (Runs.callTop hR hg hlo hr hp opts) (fun o ho => ?_)
        cases o with
        | none => exact Runs.pure cleanO_none
        | some x => exact Runs.forData (Runs.bind (interpolate_made hR hr (cleanO_some.1 ho)) (fun y hy => Runs.dig k hy))

end Hiera
