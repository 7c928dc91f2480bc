/- What an invocation has read stays as it was read, and a new invocation sees the data files as they are (C93). -/
import Verif.Lemmas.Snapshot
import Verif.Props.Reference

set_option autoImplicit false

namespace Hiera

open Value Spec World

/-! ### The mode of an invocation is kept -/

/-- Without an explainer, the mode is kept, whatever the outcome. -/
def KeepsMode : Rel := fun _ m _ => ∀ s r t, s.on = none → m s = some (r, t) → t.on = none ∧ t.v.ic.mode = s.v.ic.mode

theorem KeepsMode.core : CoreV KeepsMode where
  pure := by
    intro α a s r t ho h
    cases h; exact ⟨ho, rfl⟩
  bind := by
    intro α β m m' f f' hm hf s r t ho h
    rw [bind_def] at h
    cases hms : m s with
    | none => rw [hms] at h; cases h
    | some x =>
      obtain ⟨a | e, u⟩ := x
      · rw [hms] at h
        have h1 := hm s _ _ ho hms
        have h2 := hf a u r t h1.1 h
        exact ⟨h2.1, h2.2.trans h1.2⟩
      · rw [hms] at h
        cases h
        exact hm s _ _ ho hms
  panic := by
    intro α e s r t ho h
    cases h; exact ⟨ho, rfl⟩
  view := by
    intro s r t ho h
    cases h; exact ⟨ho, rfl⟩
  withNode := by
    intro α m m' n hm s r t ho h
    unfold Hiera.withNode at h
    rw [if_pos (by rw [ho]; rfl)] at h
    exact hm s r t ho h
  report := by
    intro f _ s r t ho h
    unfold Hiera.report at h
    rw [if_pos (by rw [ho]; rfl)] at h
    cases h; exact ⟨ho, rfl⟩

theorem KeepsMode.update {f : View → View} (hf : ∀ v, (f v).ic.mode = v.ic.mode) : KeepsMode Unit (update f) (update f) := by
  intro s r t ho h
  cases h
  exact ⟨ho, hf _⟩

theorem KeepsMode.withCopy {α : Type} {m m' : M α} (f : Ic → Ic) (g : Option ExplOpts → Option ExplOpts) :
    KeepsMode α (withCopy f g m) (withCopy f g m') := by
  intro s r t ho h
  unfold Hiera.withCopy at h
  cases hms : m { s with v := { s.v with ic := f s.v.ic }, on := g s.on } with
  | none => rw [hms] at h; cases h
  | some x =>
    rw [hms] at h
    cases h
    exact ⟨ho, rfl⟩

theorem KeepsMode.viewIf {α : Type} {m m' w w' : M α} {md : Mode} (hm : KeepsMode α m m') (hw : KeepsMode α w w') :
    KeepsMode α (view >>= fun v => if v.ic.mode = md then m else w) (view >>= fun v => if v.ic.mode = md then m' else w') := by
  refine KeepsMode.core.bind KeepsMode.core.view (fun v => ?_)
  split
  · exact hm
  · exact hw

theorem KeepsMode.loadOnce (E : Env) (p : Prov) (n : Str) : KeepsMode _ (loadOnce E p n) (loadOnce E p n) := by
  intro s r t ho h
  obtain ⟨l, hl⟩ := loadOnce_run E p n s ho
  rw [hl] at h
  cases h
  exact ⟨ho, rfl⟩

theorem KeepsMode.closed (E : Env) : Closed E KeepsMode KeepsMode where
  toCore := KeepsMode.core.toCore
  coreC := KeepsMode.core.toCore
  doWithScope := by
    intro α m m' sc hm
    have c := KeepsMode.core
    unfold Hiera.doWithScope
    exact c.bind c.view (fun v => c.bind (KeepsMode.update (fun _ => rfl)) (fun _ => c.bind hm (fun _ =>
      c.bind (KeepsMode.update (fun _ => rfl)) (fun _ => c.pure _))))
  newProvider := fun e => KeepsMode.core.bind KeepsMode.core.view (fun v =>
    KeepsMode.core.bind (KeepsMode.update (fun _ => rfl)) (fun _ => KeepsMode.core.pure _))
  forConfig := by
    intro α m m' hm s r t ho h
    unfold Hiera.forConfig at h
    rw [ho] at h
    exact hm s r t ho h
  forData := fun hm => KeepsMode.viewIf hm (KeepsMode.withCopy _ _)
  forLookupOptions := fun hm => KeepsMode.viewIf hm (KeepsMode.withCopy _ _)
  doRedacted := by
    intro α m m' hm s r t ho h
    unfold Hiera.doRedacted at h
    split at h
    · exact hm s r t ho h
    · cases hms : m { s with v := { s.v with ic := { s.v.ic with redacted := true } } } with
      | none => rw [hms] at h; cases h
      | some x =>
        rw [hms] at h
        cases h
        have := hm { s with v := { s.v with ic := { s.v.ic with redacted := true } } } _ _ ho hms
        exact ⟨this.1, this.2⟩
  loadOnce := KeepsMode.loadOnce E
  emitDig := fun _ _ => KeepsMode.update (fun _ => rfl)
  emitKey := fun _ _ _ => KeepsMode.update (fun _ => rfl)
  dataHash := by
    intro p n loc _
    have c := KeepsMode.core
    unfold Hiera.dataHash
    refine c.bind c.view (fun v => ?_)
    split
    · exact c.pure _
    · refine c.bind ?_ (fun d => c.bind (KeepsMode.update (fun _ => rfl)) (fun _ => c.pure _))
      intro s r t ho h
      obtain ⟨ld, tr, hc⟩ := callHash_run E p n (optionsFor p loc) s ho
      rw [hc] at h
      cases h
      exact ⟨ho, rfl⟩
  loadConfig := by
    intro path
    have c := KeepsMode.core
    unfold Hiera.loadConfig
    refine c.bind c.view (fun v => ?_)
    cases (assoc path v.parsed).or (elsewhere E v path) with
    | some a => exact c.pure _
    | none =>
      by_cases hl : path ∈ v.locked
      · simp only [hl, ↓reduceIte]; exact fun _ _ _ _ h => nomatch h
      · simp only [hl, ↓reduceIte]
        refine c.bind (KeepsMode.update (fun _ => rfl)) (fun _ => ?_)
        cases newCfg E.cfg path (E.readYaml path) with
        | ok c' => exact c.bind (KeepsMode.update (fun _ => rfl)) (fun _ => c.pure _)
        | panic e => exact c.bind (KeepsMode.update (fun _ => rfl)) (fun _ => c.panic _)
  putConfig := fun _ _ => KeepsMode.update (fun _ => rfl)
  setLuOpts := fun _ => KeepsMode.update (fun _ => rfl)
  setStrategy := fun _ => KeepsMode.update (fun _ => rfl)
  putCache := fun _ _ => KeepsMode.update (fun _ => rfl)

theorem lookup_mode (E : Env) {n : Nat} {k : Key} {o : Entries} {s t : St} {r : Res (Option Value)} (ho : s.on = none)
    (h : (eval E n).lookup k o s = some (r, t)) : t.on = none ∧ t.v.ic.mode = s.v.ic.mode :=
  ((KeepsMode.closed E).eval (fun _ _ _ _ _ h => nomatch h) (fun _ _ _ _ _ h => nomatch h) n).lookup k o s r t ho h

theorem Spec.Changing.mode {E : Env} {s0 s : St} (h : Changing E s0 s) (ho : s0.on = none) :
    s.on = none ∧ s.v.ic.mode = s0.v.ic.mode := by
  induction h with
  | start => exact ⟨ho, rfl⟩
  | lookup f n k o _ hl ih =>
    obtain ⟨h1, h2⟩ := lookup_mode (readingFiles E f) ih.1 hl
    exact ⟨h1, h2.trans ih.2⟩

/-! ### What was given is given again -/

theorem TameEnv.readingFiles {E : Env} (ht : TameEnv E) (f : Files) : TameEnv (readingFiles E f) :=
  ⟨ht.top, ht.mux, ht.fns, ht.plugins⟩

/-- C93: what a lookup has given once, a value or nothing, it gives again for as long as the invocation lasts, whatever
happens to the files (configuration, data and which files there are) between the lookups, and whatever else has been looked up
before and in the meantime, with any outcome. -/
theorem C93_repeat (E : Env) (ht : TameEnv E) (hc : ConfigFirst E) (s : St) (scope : Scope) {u v w : St}
    (hu : Changing E (nextInvocation s scope none) u) (f : Files) {n : Nat} {k : Key} {o : Entries} {r : Option Value}
    (h : (eval (readingFiles E f) n).lookup k o u = some (.ok r, v)) (hw : Changing E v w) (g : Files) :
    Gives (readingFiles E g) w k o (.ok r) := by
  obtain ⟨hon, hmode⟩ := hu.mode rfl
  have hmode : u.v.ic.mode = .top := hmode
  have hv := lookup_mode (readingFiles E f) hon h
  by_cases hk : k.root = "lookup_options".toList
  · cases n with
    | zero => cases h
    | succ n =>
      rw [lookup_hidden (readingFiles E f) hk o hon] at h
      cases h
      exact ⟨1, w, lookup_hidden (readingFiles E g) hk o (hw.mode hon).1⟩
  · have htf := TameEnv.readingFiles ht f
    rcases lookup_opens htf (show ConfigFirst (readingFiles E f) from hc) hon hmode (n := n) hk o with ⟨h1, _⟩ | ⟨m, _, h1⟩
    · rw [h1] at h; cases h
    · cases hr : config (readingFiles E f) (eval (readingFiles E f) m) (readingFiles E f).configPath [] (opening (readingFiles E f) u) with
      | none => rw [h1.1 hr] at h; cases h
      | some x =>
        obtain ⟨rc | e, t⟩ := x
        · have hl := config_leaves htf m (opening_on (E := readingFiles E f) hon) (opening_mode (E := readingFiles E f) hmode) hr
          have hres : Resolved E (t.withIc u.v.ic) := ⟨hl.1, by
            show (assoc E.configPath t.v.configs).isSome = true
            have := config_memo hr
            rw [show E.configPath = (readingFiles E f).configPath from rfl, this]; rfl⟩
          rw [h1.2.2 rc t hr] at h
          generalize hb : t.withIc u.v.ic = b at h hres
          have hbm : b.v.ic.mode ≠ .data := by
            rw [← hb]
            show u.v.ic.mode ≠ .data
            rw [hmode]; decide
          obtain ⟨g1, g2⟩ := lookup_stays htf n k o (show Resolved (readingFiles E f) b from hres) hbm h
          obtain ⟨g3, _, g4⟩ := (Rep.eval htf g n).lookup k o b _ v (show Resolved (readingFiles E f) b from hres) h
          have key : Resolved E w ∧ Knows v w ∧ Unmoved b w ∧ w.v.ic = b.v.ic := by
            clear h g4
            induction hw with
            | start => exact ⟨g3, .refl _, g1, g2⟩
            | @lookup s1 t1 _ f' n' k' o' _ hl' ih =>
              obtain ⟨i1, i2, i3, i4⟩ := ih
              have htf' := TameEnv.readingFiles ht f'
              obtain ⟨j1, j2⟩ := lookup_stays htf' n' k' o' (show Resolved (readingFiles E f') s1 from i1) (by rw [i4]; exact hbm) hl'
              obtain ⟨j3, j4, _⟩ := (Rep.eval htf' f' n').lookup k' o' s1 _ t1 (show Resolved (readingFiles E f') s1 from i1) hl'
              exact ⟨j3, i2.trans j4, i3.trans j1, j2.trans i4⟩
          obtain ⟨_, i2, i3, i4⟩ := key
          have like : Like b w := by
            refine ⟨i3.on, w.v.mem, ?_⟩
            obtain ⟨_, _, h3, h4, h5, _, _⟩ := i3
            cases w with
            | mk wv on tree => cases wv; cases h3; cases h4; cases h5; cases i4; rfl
          obtain ⟨t', h5, _⟩ := g4 r rfl w like i2
          exact ⟨n, t', h5⟩
        · obtain ⟨u', h2⟩ := h1.2.1 e t hr
          rw [h2] at h; cases h

/-! ### A new invocation -/

/-- Only the configuration of the session is ever parsed, and its lock is left behind only if it is not valid. -/
def OnlyConfig (E : Env) (v w : View) : Prop :=
  (∀ p, p ≠ E.configPath → assoc p w.parsed = assoc p v.parsed) ∧
  ((∃ c, newCfg E.cfg E.configPath (E.readYaml E.configPath) = .ok c) → w.locked = v.locked)

theorem OnlyConfig.pre (E : Env) : Pre (OnlyConfig E) where
  refl := fun _ => ⟨fun _ _ => rfl, fun _ => rfl⟩
  trans := fun h g => ⟨fun p hp => (g.1 p hp).trans (h.1 p hp), fun hc => (g.2 hc).trans (h.2 hc)⟩

theorem OnlyConfig.same {E : Env} {v w : View} (h1 : w.parsed = v.parsed) (h2 : w.locked = v.locked) : OnlyConfig E v w :=
  ⟨fun p _ => by rw [h1], fun _ => h2⟩

abbrev OnlyRel (E : Env) : Rel := Mono (OnlyConfig E)

theorem OnlyRel.core (E : Env) : CoreV (OnlyRel E) := Mono.core (OnlyConfig.pre E)

theorem OnlyRel.withCopy {E : Env} {α : Type} {m m' : M α} (f : Ic → Ic) (g : Option ExplOpts → Option ExplOpts)
    (hm : OnlyRel E α m m') : OnlyRel E α (withCopy f g m) (withCopy f g m') := by
  intro s r t ht
  unfold Hiera.withCopy at ht
  cases hms : m { s with v := { s.v with ic := f s.v.ic }, on := g s.on } with
  | none => rw [hms] at ht; cases ht
  | some x =>
    rw [hms] at ht
    cases ht
    have := hm _ _ _ hms
    exact ⟨this.1, this.2⟩

theorem OnlyRel.viewIf {E : Env} {α : Type} {m m' w w' : M α} {md : Mode} (hm : OnlyRel E α m m') (hw : OnlyRel E α w w') :
    OnlyRel E α (view >>= fun v => if v.ic.mode = md then m else w) (view >>= fun v => if v.ic.mode = md then m' else w') := by
  refine (OnlyRel.core E).bind (OnlyRel.core E).view (fun v => ?_)
  split
  · exact hm
  · exact hw

theorem OnlyRel.forData {E : Env} {α : Type} {m m' : M α} (hm : OnlyRel E α m m') : OnlyRel E α (forData m) (forData m') :=
  OnlyRel.viewIf hm (OnlyRel.withCopy _ _ hm)

theorem OnlyRel.forLookupOptions {E : Env} {α : Type} {m m' : M α} (hm : OnlyRel E α m m') :
    OnlyRel E α (forLookupOptions m) (forLookupOptions m') :=
  OnlyRel.viewIf hm (OnlyRel.withCopy _ _ hm)

theorem OnlyRel.asking {E : Env} (ht : TameEnv E) : Asking E (OnlyRel E) Tame Fits where
  toCore := (OnlyRel.core E).toCore
  loadOnce := Mono.loadOnce (OnlyConfig.pre E) (fun _ _ => .same rfl rfl)
  emitDig := fun _ _ => Mono.update (fun _ => .same rfl rfl)
  emitKey := fun _ _ _ => Mono.update (fun _ => .same rfl rfl)
  dataHash := fun p n loc _ => Mono.dataHash (OnlyConfig.pre E) (fun _ _ => .same rfl rfl) (fun _ _ _ => .same rfl rfl) (fun _ _ => .same rfl rfl) p n loc
  keyFn := ht.keyFn
  fits := fun _ _ _ h => h

theorem OnlyRel.resolving (E : Env) : Resolving (OnlyRel E) where
  toCore := (OnlyRel.core E).toCore
  doWithScope := by
    intro α m m' sc hm
    have c := OnlyRel.core E
    unfold Hiera.doWithScope
    exact c.bind c.view (fun v => c.bind (Mono.update (fun _ => .same rfl rfl)) (fun _ => c.bind hm (fun _ =>
      c.bind (Mono.update (fun _ => .same rfl rfl)) (fun _ => c.pure _))))
  newProvider := fun e => (OnlyRel.core E).bind (OnlyRel.core E).view (fun v =>
    (OnlyRel.core E).bind (Mono.update (fun _ => .same rfl rfl)) (fun _ => (OnlyRel.core E).pure _))

theorem OnlyRel.loadConfig (E : Env) : OnlyRel E _ (loadConfig E E.configPath) (loadConfig E E.configPath) := by
  intro s r t ht
  unfold Hiera.loadConfig at ht
  rw [bind_ok (show view s = some (.ok s.v, s) from rfl)] at ht
  cases hb : (assoc E.configPath s.v.parsed).or (elsewhere E s.v E.configPath) with
  | some c => simp only [hb] at ht; cases ht; exact .same rfl rfl
  | none =>
    simp only [hb] at ht
    split at ht
    · cases ht
    · rw [bind_ok (show emit (.config E.configPath) s = some (.ok (), { s with v := { s.v with trace := s.v.trace ++ [.config E.configPath] } }) from rfl)] at ht
      cases hn : newCfg E.cfg E.configPath (E.readYaml E.configPath) with
      | ok c =>
        simp only [hn] at ht
        cases ht
        exact ⟨fun p hp => by simp [assoc, hp], fun _ => rfl⟩
      | panic e =>
        simp only [hn] at ht
        cases ht
        exact ⟨fun p hp => rfl, fun ⟨c, hc⟩ => by rw [hn] at hc; cases hc⟩

theorem OnlyRel.config {E : Env} (ht : TameEnv E) {rec rec' : Rec} (hr : RecRelOn (OnlyRel E) (OnlyRel E) Tame rec rec') :
    OnlyRel E _ (config E rec E.configPath []) (config E rec' E.configPath []) := by
  have c := OnlyRel.core E
  have ha := OnlyRel.asking ht
  have hre := OnlyRel.resolving E
  have hf : ∀ {α : Type} {m m' : M α}, OnlyRel E α m m' → OnlyRel E α (forConfig m) (forConfig m') := by
    intro α m m' hm s r t h
    unfold Hiera.forConfig at h
    split at h
    · exact hm s r t h
    · exact OnlyRel.withCopy _ _ hm s r t h
  unfold Hiera.config
  have e : (if E.configPath = [] then E.configPath else E.configPath) = E.configPath := by split <;> rfl
  rw [e]
  refine c.bind c.view (fun v => ?_)
  cases assoc E.configPath v.configs with
  | some rc => exact c.pure _
  | none =>
    refine c.bind (OnlyRel.loadConfig E) (fun cf => c.bind ?_ (fun rc => c.bind (Mono.update (fun _ => .same rfl rfl)) (fun _ => c.pure _)))
    unfold Hiera.resolve
    exact c.bind (hf (c.bind (hre.createProviders hr.interpC _ _) (fun _ => c.bind (hre.createProviders hr.interpC _ _) (fun _ => c.pure _))))
      (fun pd => c.bind (OnlyRel.forLookupOptions (c.withNode _ (ha.mergeM _ _ _ _ (fun p _ => ha.mergeLocations hr _ _ _)))) (fun v => c.pure _))

theorem OnlyRel.shape {E : Env} (ht : TameEnv E) : Shape E (OnlyRel E) (OnlyRel E) where
  r := OnlyRel.asking ht
  d := OnlyRel.asking ht
  setLuOpts := fun _ => Mono.update (fun _ => .same rfl rfl)
  setStrategy := fun _ => Mono.update (fun _ => .same rfl rfl)
  redacted := by
    intro α m m' hm s r t h
    unfold Hiera.doRedacted at h
    split at h
    · exact hm s r t h
    · cases hms : m { s with v := { s.v with ic := { s.v.ic with redacted := true } } } with
      | none => rw [hms] at h; cases h
      | some x =>
        rw [hms] at h
        cases h
        have := hm _ _ _ hms
        exact ⟨this.1, this.2⟩
  optionsR := OnlyRel.forLookupOptions
  dataD := OnlyRel.forData
  dataR := OnlyRel.forData
  config := fun hr => OnlyRel.config ht hr
  tame := ht

theorem lookup_onlyConfig {E : Env} (ht : TameEnv E) {n : Nat} {k : Key} {o : Entries} {s t : St} {r : Res (Option Value)}
    (h : (eval E n).lookup k o s = some (r, t)) : OnlyConfig E s.v t.v :=
  ((OnlyRel.shape ht).eval (OnlyRel.shape ht) (fun _ _ _ _ h => nomatch h) (fun _ _ _ _ h => nomatch h) n).1.lookup k o s r t h

/-- The states that a session can be in whose files change, but for the configuration file, which says `c`. -/
inductive Spec.Lasting (E : Env) (c : FileRes) : St → Prop
  | start (scope : Scope) (ex : Option ExplOpts) : Lasting E c (newInvocation scope ex)
  | invocation {s : St} (scope : Scope) (ex : Option ExplOpts) : Lasting E c s → Lasting E c (nextInvocation s scope ex)
  | lookup {s t : St} {r : Res (Option Value)} (f : Files) (n : Nat) (k : Key) (opts : Entries) : Lasting E c s →
      f.readYaml E.configPath = c → (eval (readingFiles E f) n).lookup k opts s = some (r, t) → Lasting E c t

theorem Spec.Lasting.parsed {E : Env} (ht : TameEnv E) {c : FileRes} {C : Cfg} (hc : newCfg E.cfg E.configPath c = .ok C) {s : St}
    (h : Lasting E c s) : s.v.locked = [] ∧ ∀ p d, assoc p s.v.parsed = some d → p = E.configPath ∧ d = C := by
  induction h with
  | start => exact ⟨rfl, fun p d h => nomatch h⟩
  | invocation _ _ _ ih => exact ih
  | lookup f n k o _ hf hl ih =>
    obtain ⟨h1, h2⟩ := lookup_onlyConfig (TameEnv.readingFiles ht f) hl
    refine ⟨(h2 ⟨C, by show newCfg E.cfg E.configPath (f.readYaml E.configPath) = _; rw [hf]; exact hc⟩).trans ih.1, fun p d hd => ?_⟩
    by_cases hp : p = E.configPath
    · subst hp
      refine ⟨rfl, ?_⟩
      rcases C60_kept (readingFiles E f) n k o hl E.configPath with h | ⟨_, d', hd', h'⟩
      · exact (ih.2 _ d (by rw [← h]; exact hd)).2
      · rw [hd] at hd'
        cases hd'
        have h' : newCfg E.cfg E.configPath (f.readYaml E.configPath) = .ok d := h'
        rw [hf, hc] at h'
        cases h'; rfl
    · exact ih.2 p d (by rw [← h1 p hp]; exact hd)

theorem StatelessEnv.readingFiles {E : Env} (he : StatelessEnv E) (f : Files) : StatelessEnv (readingFiles E f) :=
  ⟨he.top, he.mux, he.fns, he.plugins⟩

/-- C93: a new invocation sees the data files as they are: whatever the session was used for before, and whatever happened to
the data files in the meantime, a lookup gives the answer of the reference for the files as they are now. The configuration
file is the same all the time, and valid. -/
theorem C93_new (E : Env) (he : StatelessEnv E) {c : FileRes} {C : Cfg} (hc : newCfg E.cfg E.configPath c = .ok C) {s : St}
    (hs : Lasting E c s) (g : Files) (hg : g.readYaml E.configPath = c) (scope : Scope) (ex : Option ExplOpts) (k : Key) (o : Entries)
    (r : Res (Option Value)) :
    Gives (readingFiles E g) (nextInvocation s scope ex) k o r ↔ Answer (readingFiles E g) scope k o r := by
  obtain ⟨hl, hp⟩ := hs.parsed he.tame hc
  have inv : Inv (readingFiles E g) none ⟨scope, .call⟩ (nextInvocation s scope none) :=
    ⟨rfl, rfl, (by intro p n loc h _ ha; cases ha), fun _ h => (nomatch h), fun h => (nomatch h),
      fun _ => ⟨rfl, fun p d hd => by
        obtain ⟨rfl, rfl⟩ := hp p d hd
        show newCfg E.cfg E.configPath (g.readYaml E.configPath) = _
        rw [hg]; exact hc, hl⟩⟩
  have h := lookup_follows (StatelessEnv.readingFiles he g) inv rfl rfl k o r
  cases ex with
  | none => exact h
  | some x =>
    rw [← h, gives_iff, gives_iff]
    have : ∀ n, ((eval (readingFiles E g) n).lookup k o (nextInvocation s scope (some x))).map Prod.fst =
        ((eval (readingFiles E g) n).lookup k o (nextInvocation s scope none)).map Prod.fst :=
      fun n => (C27_explain (readingFiles E g) n k o (nextInvocation s scope none).v x).1
    simp only [this]

/-! ### One snapshot for each invocation -/

theorem Full.changing {E : Env} (ht : TameEnv E) {rc : RCfg} (f : Files) {s0 v w : St} (h0 : History (readingFiles E f) s0 v) (hv : Full E rc v.v)
    (h : Changing E v w) : Full E rc w.v ∧ History (readingFiles E f) s0 w := by
  induction h with
  | start => exact ⟨hv, h0⟩
  | @lookup s t r g n k o _ hl ih =>
    obtain ⟨h1, h2⟩ := (Still.eval (E := readingFiles E f) (rc := rc) (TameEnv.readingFiles ht f) g n).lookup k o s ih.1
    have e : (eval (readingFiles (readingFiles E f) g) n).lookup k o s = some (r, t) := hl
    rw [h1] at e
    exact ⟨h2 r t e, .lookup n k o ih.2 e⟩

/-- C93: an invocation sees one snapshot of the files, those of its first lookup: whatever happens to the files afterwards
(configuration, data and which files there are), and whatever else has been looked up before and in the meantime, with any outcome,
each lookup gives what it would give if it were the first and the files were as they were then: the same value, nothing, the
same error or no end. The session may have been used before, with other data files but a configuration file that was the
same all the time, and the first lookup gives a value or nothing. -/
theorem C93_snapshot (E : Env) (ht : TameEnv E) (hc : ConfigFirst E) {c : FileRes} {C : Cfg} (hC : newCfg E.cfg E.configPath c = .ok C)
    {s : St} (hs : Lasting E c s) (scope : Scope) (f : Files) (hf : f.readYaml E.configPath = c) {n : Nat} {k0 : Key} {o0 : Entries}
    {r0 : Option Value} {v w : St} (hk : k0.root ≠ "lookup_options".toList)
    (h : (eval (readingFiles E f) n).lookup k0 o0 (nextInvocation s scope none) = some (.ok r0, v)) (hw : Changing E v w)
    (g : Files) (k : Key) (o : Entries) (r : Res (Option Value)) :
    Gives (readingFiles E g) w k o r ↔ Gives (readingFiles E f) (nextInvocation s scope none) k o r := by
  obtain ⟨hl, hp⟩ := hs.parsed ht hC
  have htf := TameEnv.readingFiles ht f
  have hcf : ConfigFirst (readingFiles E f) := hc
  have sound : Sound (readingFiles E f) (nextInvocation s scope none).v.mem := ⟨(by intro p n loc h _ ha; cases ha), fun p d hd => by
    obtain ⟨rfl, rfl⟩ := hp p d hd
    show newCfg E.cfg E.configPath (f.readYaml E.configPath) = _
    rw [hf]; exact hC, hl⟩
  obtain ⟨b, hb⟩ := basis htf hcf rfl rfl sound hk ⟨n, v, h⟩
  have full : ∃ rc, Full E rc v.v := by
    rcases lookup_opens htf hcf (s0 := nextInvocation s scope none) rfl rfl (n := n) hk o0 with ⟨h1, _⟩ | ⟨m, _, h1⟩
    · rw [h1] at h; cases h
    · cases hr : config (readingFiles E f) (eval (readingFiles E f) m) (readingFiles E f).configPath [] (opening (readingFiles E f) (nextInvocation s scope none)) with
      | none => rw [h1.1 hr] at h; cases h
      | some x =>
        obtain ⟨rc | e, t⟩ := x
        · have hn : assoc (readingFiles E f).configPath (opening (readingFiles E f) (nextInvocation s scope none)).v.configs = none := by
            unfold opening; split <;> rfl
          have := config_full (Mono.eval (MoreKnown.change (readingFiles E f)) m) hr hn
          rw [h1.2.2 rc t hr] at h
          have h2 := ((Still.eval (E := readingFiles E f) (rc := rc) htf f n).lookup k0 o0 (t.withIc (nextInvocation s scope none).v.ic) this).2 _ _ h
          exact ⟨rc, h2⟩
        · obtain ⟨u', h2⟩ := h1.2.1 e t hr
          rw [h2] at h; cases h
  obtain ⟨rc, full⟩ := full
  obtain ⟨hfw, hist⟩ := Full.changing ht f (.lookup n k0 o0 .start h) full hw
  have same : Gives (readingFiles E g) w k o r ↔ Gives (readingFiles E f) w k o r := by
    have e : ∀ n, (eval (readingFiles E g) n).lookup k o w = (eval (readingFiles E f) n).lookup k o w := fun n =>
      ((Still.eval (E := readingFiles E f) (rc := rc) htf g n).lookup k o w hfw).1
    unfold Gives
    simp only [e]
  rw [same]
  rcases hb.history htf hist with rfl | hlater
  · exact Iff.rfl
  · rw [hb.gives, hlater.gives hb]

/-- C93: so each lookup of an invocation gives the answer of the reference for the files as they were for its first lookup. -/
theorem C93_snapshot_answer (E : Env) (he : StatelessEnv E) {c : FileRes} {C : Cfg} (hC : newCfg E.cfg E.configPath c = .ok C)
    {s : St} (hs : Lasting E c s) (scope : Scope) (f : Files) (hf : f.readYaml E.configPath = c) {n : Nat} {k0 : Key} {o0 : Entries}
    {r0 : Option Value} {v w : St} (hk : k0.root ≠ "lookup_options".toList)
    (h : (eval (readingFiles E f) n).lookup k0 o0 (nextInvocation s scope none) = some (.ok r0, v)) (hw : Changing E v w)
    (g : Files) (k : Key) (o : Entries) (r : Res (Option Value)) :
    Gives (readingFiles E g) w k o r ↔ Answer (readingFiles E f) scope k o r := by
  rw [C93_snapshot E he.tame he.configFirst hC hs scope f hf hk h hw g k o r, C93_new E he hC hs f hf scope none k o r]

/-! ### Cases -/

/-- The files of a world. -/
def Spec.filesOf (E : Env) : Files := ⟨E.stat, E.glob, E.readYaml, E.readJson⟩

/-- Before: `x` is in the upper file. -/
def filesBefore : Env := two [(World.s "x", World.s "one")] [(World.s "y", World.s "why")]

/-- After: both files have changed. -/
def filesAfter : Env := two [(World.s "x", World.s "two"), (World.s "z", World.s "new")] [(World.s "x", World.s "three")]

def keyX : Key := ⟨"x".toList, [.name "x".toList]⟩
def keyZ : Key := ⟨"z".toList, [.name "z".toList]⟩

/-- The hypotheses of C93 can be met, and there is something to say: after the first lookup the files change; the invocation still
gives the old value for `x`, and nothing for `z`, which is new; another invocation of the session gives the new value. -/
example : ∃ v w w', (eval (readingFiles filesBefore (filesOf filesBefore)) 5).lookup keyX [] (newInvocation (.map []) none) = some (.ok (some (World.s "one")), v) ∧
    (eval (readingFiles filesBefore (filesOf filesAfter)) 5).lookup keyX [] v = some (.ok (some (World.s "one")), w) ∧
    (eval (readingFiles filesBefore (filesOf filesAfter)) 5).lookup keyZ [] w = some (.ok none, w') ∧
    ∃ u, (eval (readingFiles filesBefore (filesOf filesAfter)) 5).lookup keyX [] (nextInvocation w' (.map []) none) = some (.ok (some (World.s "two")), u) := by
  have h : (match (eval (readingFiles filesBefore (filesOf filesBefore)) 5).lookup keyX [] (newInvocation (.map []) none) with
    | some (.ok a, v) => decide (a = some (World.s "one")) && match (eval (readingFiles filesBefore (filesOf filesAfter)) 5).lookup keyX [] v with
      | some (.ok b, w) => decide (b = some (World.s "one")) && match (eval (readingFiles filesBefore (filesOf filesAfter)) 5).lookup keyZ [] w with
        | some (.ok c, w') => decide (c = none) && match (eval (readingFiles filesBefore (filesOf filesAfter)) 5).lookup keyX [] (nextInvocation w' (.map []) none) with
          | some (.ok d, _) => decide (d = some (World.s "two"))
          | _ => false
        | _ => false
      | _ => false
    | _ => false) = true := by decide +kernel
  split at h
  · rename_i a v h1
    rw [Bool.and_eq_true, decide_eq_true_eq] at h
    obtain ⟨rfl, h⟩ := h
    split at h
    · rename_i b w h2
      rw [Bool.and_eq_true, decide_eq_true_eq] at h
      obtain ⟨rfl, h⟩ := h
      split at h
      · rename_i c w' h3
        rw [Bool.and_eq_true, decide_eq_true_eq] at h
        obtain ⟨rfl, h⟩ := h
        split at h
        · rename_i d u h4
          rw [decide_eq_true_eq] at h
          subst h
          exact ⟨v, w, w', h1, h2, h3, u, h4⟩
        · cases h
      · cases h
    · cases h
  · cases h

/-- After: the configuration has lost its upper level. -/
def filesConfigured : Env := mk (cfg [entry "b" "b.yaml"]) [("/h/data/a.yaml".toList, .map [(World.s "x", World.s "one")]), ("/h/data/b.yaml".toList, .map [(World.s "y", World.s "why")])]

/-- That the configuration file is the same all the time is needed: a session never sees a change of it, not even in later
invocations (a new session does). -/
theorem C93_configuration : ∃ (E : Env) (f g : Files) (v : St), TameEnv E ∧ ConfigFirst E ∧
    (∃ n r, (eval (readingFiles E f) n).lookup keyX [] (newInvocation (.map []) none) = some (.ok r, v)) ∧
    Gives (readingFiles E g) (nextInvocation v (.map []) none) keyX [] (.ok (some (World.s "one"))) ∧
    Gives (readingFiles E g) (newInvocation (.map []) none) keyX [] (.ok none) := by
  have h : (match (eval (readingFiles filesBefore (filesOf filesBefore)) 5).lookup keyX [] (newInvocation (.map []) none) with
    | some (.ok _, v) => (match (eval (readingFiles filesBefore (filesOf filesConfigured)) 5).lookup keyX [] (nextInvocation v (.map []) none) with
      | some (.ok b, _) => decide (b = some (World.s "one"))
      | _ => false) && match (eval (readingFiles filesBefore (filesOf filesConfigured)) 5).lookup keyX [] (newInvocation (.map []) none) with
        | some (.ok c, _) => decide (c = none)
        | _ => false
    | _ => false) = true := by decide +kernel
  split at h
  · rename_i a v h1
    rw [Bool.and_eq_true] at h
    obtain ⟨h2, h3⟩ := h
    split at h2
    · rename_i b w h4
      split at h3
      · rename_i c w' h5
        rw [decide_eq_true_eq] at h2 h3
        subst h2 h3
        exact ⟨filesBefore, filesOf filesBefore, filesOf filesConfigured, v,
          ⟨trivial, fun fs f h => (nomatch h), fun n f h => (nomatch h), fun p n f h => by cases h⟩, .inl rfl, ⟨5, a, h1⟩, ⟨5, w, h4⟩, ⟨5, w', h5⟩⟩
      · cases h3
    · cases h2
  · cases h

/-- Before: the upper file is not a hash. -/
def filesBroken : Env := mk (cfg [entry "a" "a.yaml"]) [("/h/data/a.yaml".toList, .int 1)]
def filesRepaired : Env := mk (cfg [entry "a" "a.yaml"]) [("/h/data/a.yaml".toList, .map [(World.s "x", World.s "one")])]

/-- That the first lookup gives something is needed: what could not be read is read again, so that a lookup that failed may
succeed later in the same invocation. -/
theorem C93_failure : ∃ (E : Env) (f g : Files) (v : St), TameEnv E ∧ ConfigFirst E ∧
    (∃ n e, (eval (readingFiles E f) n).lookup keyX [] (newInvocation (.map []) none) = some (.panic e, v)) ∧
    Gives (readingFiles E g) v keyX [] (.ok (some (World.s "one"))) := by
  have h : (match (eval (readingFiles filesBroken (filesOf filesBroken)) 5).lookup keyX [] (newInvocation (.map []) none) with
    | some (.panic _, v) => (match (eval (readingFiles filesBroken (filesOf filesRepaired)) 5).lookup keyX [] v with
      | some (.ok b, _) => decide (b = some (World.s "one"))
      | _ => false)
    | _ => false) = true := by decide +kernel
  split at h
  · rename_i e v h1
    split at h
    · rename_i b w h2
      rw [decide_eq_true_eq] at h
      subst h
      exact ⟨filesBroken, filesOf filesBroken, filesOf filesRepaired, v,
        ⟨trivial, fun fs f h => (nomatch h), fun n f h => (nomatch h), fun p n f h => by cases h⟩, .inl rfl, ⟨5, e, h1⟩, ⟨5, w, h2⟩⟩
    · cases h
  · cases h

end Hiera
