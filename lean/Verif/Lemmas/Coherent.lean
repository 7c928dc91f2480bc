/- The data that providers remember is the data that their functions give. -/
import Verif.Lemmas.Mono
import Verif.Lemmas.Sim
import Verif.Props.Shared
import Verif.Lemmas.Quiet

set_option autoImplicit false

namespace Hiera

/-- What the function of a `data_hash` entry gives. -/
def hashOf (E : Env) (p : Prov) (n : Str) (o : Entries) : Res Entries :=
  if n = "yaml_data".toList then fileData E E.readYaml o
  else if n = "json_data".toList then fileData E E.readJson o
  else match loadFunction E p.entry n with
    | .ok (some (.hash f)) => match f o with
      | .ok (some (.map es)) => .ok es
      | .ok _ => .ok []
      | .panic e => .panic e
    | .ok (some _) => .panic (.other 2)
    | .ok none => .ok []
    | .panic e => .panic e

def hashKey : Option Loc → Str
  | some l => l.resolved
  | none => []

/-- The remembered data is that of the functions. -/
def Coh (E : Env) (hs : List ((Prov × Str) × Entries)) : Prop :=
  ∀ p n loc h, Fits p n loc → assoc (p, hashKey loc) hs = some h → hashOf E p n (optionsFor p loc) = .ok h

theorem loadOnce_run (E : Env) (p : Prov) (n : Str) (s : St) (ho : s.on = none) :
    ∃ ld, loadOnce E p n s = some (loadFunction E p.entry n, { s with v := { s.v with loaded := ld } }) := by
  unfold loadOnce
  cases hf : loadFunction E p.entry n with
  | panic e => exact ⟨s.v.loaded, rfl⟩
  | ok f =>
    rw [bind_ok (show lift (.ok f) s = some (.ok f, s) from rfl), bind_ok (show view s = some (.ok s.v, s) from rfl)]
    by_cases hm : p.id ∈ s.v.loaded
    · rw [if_pos hm]; exact ⟨s.v.loaded, rfl⟩
    · rw [if_neg hm]
      refine ⟨p.id :: s.v.loaded, ?_⟩
      have : reportUnresolved n f s = some (.ok (), s) := by
        cases f with
        | none => unfold reportUnresolved report; simp [ho]
        | some f => rfl
      rw [bind_ok this]
      rfl

theorem callHash_run (E : Env) (p : Prov) (n : Str) (o : Entries) (s : St) (ho : s.on = none) :
    ∃ ld tr, callHash E p n o s = some (hashOf E p n o, { s with v := { s.v with loaded := ld, trace := tr } }) := by
  unfold callHash hashOf
  split
  · exact ⟨s.v.loaded, s.v.trace ++ [.hash n o], rfl⟩
  · split
    · exact ⟨s.v.loaded, s.v.trace ++ [.hash n o], rfl⟩
    · obtain ⟨ld, hl⟩ := loadOnce_run E p n s ho
      cases hf : loadFunction E p.entry n with
      | panic e => rw [hf] at hl; exact ⟨ld, s.v.trace, bind_panic hl⟩
      | ok f =>
        rw [hf] at hl
        rw [bind_ok hl]
        cases f with
        | none => exact ⟨ld, s.v.trace, rfl⟩
        | some f =>
          cases f with
          | dig _ => exact ⟨ld, s.v.trace, rfl⟩
          | key _ => exact ⟨ld, s.v.trace, rfl⟩
          | hash f =>
            refine ⟨ld, s.v.trace ++ [.hash n o], ?_⟩
            dsimp only
            rw [bind_ok (show emit (.hash n o) { s with v := { s.v with loaded := ld } } =
              some (.ok (), { s with v := { s.v with loaded := ld, trace := s.v.trace ++ [.hash n o] } }) from rfl)]
            cases hfo : f o with
            | panic e => rfl
            | ok v =>
              rw [bind_ok (show lift (.ok v) _ = some (.ok v, _) from rfl)]
              cases v with
              | none => rfl
              | some w => cases w <;> rfl

theorem Coh.cons {E : Env} {hs : List ((Prov × Str) × Entries)} (hc : Coh E hs) {p : Prov} {n : Str} {loc : Option Loc} {h : Entries}
    (hf : Fits p n loc) (hh : hashOf E p n (optionsFor p loc) = .ok h) : Coh E (((p, hashKey loc), h) :: hs) := by
  intro p' n' loc' h' hf' ha
  unfold assoc at ha
  split at ha
  · rename_i he
    cases ha
    have e1 : p' = p := congrArg Prod.fst he
    have e2 : hashKey loc' = hashKey loc := congrArg Prod.snd he
    subst e1
    have e3 : n' = n := by
      have := hf'.1.symm.trans hf.1
      cases this; rfl
    subst e3
    have e4 : optionsFor p' loc' = optionsFor p' loc := by
      have e5 : loc'.isSome = loc.isSome := hf'.2.trans hf.2.symm
      cases loc' with
      | none =>
        cases loc with
        | none => rfl
        | some _ => cases e5
      | some l' =>
        cases loc with
        | none => cases e5
        | some l =>
          have : l'.resolved = l.resolved := e2
          unfold optionsFor
          dsimp only
          rw [this]
    rw [e4]
    exact hh
  · exact hc p' n' loc' h' hf' ha

theorem dataHash_coherent (E : Env) (p : Prov) (n : Str) (loc : Option Loc) (hf : Fits p n loc) (s : St) (ho : s.on = none)
    (hc : Coh E s.v.hashes) : ∃ hs ld tr, dataHash E p n loc s = some (hashOf E p n (optionsFor p loc),
      { s with v := { s.v with hashes := hs, loaded := ld, trace := tr } }) ∧ Coh E hs := by
  have e : dataHash E p n loc = (view >>= fun v => match assoc (p, hashKey loc) v.hashes with
      | some h => pure h
      | none => callHash E p n (optionsFor p loc) >>= fun h =>
        update (fun w => { w with hashes := ((p, hashKey loc), h) :: w.hashes }) >>= fun _ => pure h) := by
    unfold dataHash hashKey
    cases loc <;> rfl
  rw [e, bind_ok (show view s = some (.ok s.v, s) from rfl)]
  cases ha : assoc (p, hashKey loc) s.v.hashes with
  | some h =>
    rw [hc p n loc h hf ha]
    exact ⟨s.v.hashes, s.v.loaded, s.v.trace, rfl, hc⟩
  | none =>
    obtain ⟨ld, tr, hl⟩ := callHash_run E p n (optionsFor p loc) s ho
    cases hh : hashOf E p n (optionsFor p loc) with
    | panic er =>
      rw [hh] at hl
      exact ⟨s.v.hashes, ld, tr, bind_panic hl, hc⟩
    | ok h =>
      rw [hh] at hl
      refine ⟨((p, hashKey loc), h) :: s.v.hashes, ld, tr, ?_, hc.cons hf hh⟩
      dsimp only
      rw [bind_ok hl]
      rfl

/-- Memories that are as they should be. -/
structure Sound (E : Env) (x : Mem) : Prop where
  hashes : Coh E x.hashes
  parsed : ∀ p c, assoc p x.parsed = some c → newCfg E.cfg p (E.readYaml p) = .ok c
  locked : x.locked = []

def BothSound (E : Env) (x y : Mem) : Prop := Sound E x ∧ Sound E y

theorem BothSound.loadOnce (E : Env) (p : Prov) (n : Str) :
    Sim (BothSound E) (· = none) _ (loadOnce E p n) (loadOnce E p n) := by
  intro s x hq hi
  obtain ⟨l1, h1⟩ := loadOnce_run E p n s hq
  obtain ⟨l2, h2⟩ := loadOnce_run E p n (s.withMem x) hq
  cases hf : loadFunction E p.entry n with
  | panic e =>
    rw [hf] at h1 h2
    exact .inr (.inr ⟨e, _, { x with loaded := l2 }, h1, h2⟩)
  | ok f =>
    rw [hf] at h1 h2
    exact .inr (.inl ⟨f, _, { x with loaded := l2 }, h1, h2, rfl, ⟨hi.1.1, hi.1.2, hi.1.3⟩, ⟨hi.2.1, hi.2.2, hi.2.3⟩⟩)

theorem BothSound.dataHash (E : Env) (p : Prov) (n : Str) (loc : Option Loc) (hf : Fits p n loc) :
    Sim (BothSound E) (· = none) _ (dataHash E p n loc) (dataHash E p n loc) := by
  intro s x hq hi
  obtain ⟨g1, l1, t1, h1, c1⟩ := dataHash_coherent E p n loc hf s hq hi.1.hashes
  obtain ⟨g2, l2, t2, h2, c2⟩ := dataHash_coherent E p n loc hf (s.withMem x) hq hi.2.hashes
  cases hh : hashOf E p n (optionsFor p loc) with
  | panic e =>
    rw [hh] at h1 h2
    exact .inr (.inr ⟨e, _, { x with hashes := g2, loaded := l2, trace := t2 }, h1, h2⟩)
  | ok f =>
    rw [hh] at h1 h2
    exact .inr (.inl ⟨f, _, { x with hashes := g2, loaded := l2, trace := t2 }, h1, h2, rfl, ⟨c1, hi.1.2, hi.1.3⟩, ⟨c2, hi.2.2, hi.2.3⟩⟩)

theorem BothSound.loadConfig (E : Env) (path : Str) :
    Sim (BothSound E) (· = none) _ (loadConfig E path) (loadConfig E path) := by
  intro s x _ hi
  obtain ⟨⟨h1, h3, h5⟩, ⟨h2, h4, h6⟩⟩ := hi
  cases hn : newCfg E.cfg path (E.readYaml path) with
  | ok c =>
    refine .inr (.inl ?_)
    cases ha : (assoc path s.v.parsed).or (elsewhere E s.v path) with
    | some c' =>
      have e := found_ok h3 ha
      rw [hn] at e; cases e
      rw [loadConfig_parsed ha]
      cases hb : (assoc path (s.withMem x).v.parsed).or (elsewhere E (s.withMem x).v path) with
      | some c'' =>
        have e := found_ok h4 hb
        rw [hn] at e; cases e
        rw [loadConfig_parsed hb]
        exact ⟨c, s, x, rfl, rfl, rfl, ⟨h1, h3, h5⟩, ⟨h2, h4, h6⟩⟩
      | none =>
        rw [loadConfig_ok hb h6 hn]
        exact ⟨c, s, { x with trace := x.trace ++ [.config path], parsed := (path, c) :: x.parsed }, rfl, rfl, rfl, ⟨h1, h3, h5⟩, ⟨h2, parsed_cons hn h4, h6⟩⟩
    | none =>
      rw [loadConfig_ok ha h5 hn]
      cases hb : (assoc path (s.withMem x).v.parsed).or (elsewhere E (s.withMem x).v path) with
      | some c'' =>
        have e := found_ok h4 hb
        rw [hn] at e; cases e
        rw [loadConfig_parsed hb]
        exact ⟨c, _, x, rfl, rfl, rfl, ⟨h1, parsed_cons hn h3, h5⟩, ⟨h2, h4, h6⟩⟩
      | none =>
        rw [loadConfig_ok hb h6 hn]
        exact ⟨c, _, { x with trace := x.trace ++ [.config path], parsed := (path, c) :: x.parsed }, rfl, rfl, rfl, ⟨h1, parsed_cons hn h3, h5⟩, ⟨h2, parsed_cons hn h4, h6⟩⟩
  | panic e =>
    have ha : (assoc path s.v.parsed).or (elsewhere E s.v path) = none := by
      cases ha : (assoc path s.v.parsed).or (elsewhere E s.v path) with
      | none => rfl
      | some c' => have e := found_ok h3 ha; rw [hn] at e; cases e
    have hb : (assoc path (s.withMem x).v.parsed).or (elsewhere E (s.withMem x).v path) = none := by
      cases hb : (assoc path (s.withMem x).v.parsed).or (elsewhere E (s.withMem x).v path) with
      | none => rfl
      | some c' => have e := found_ok h4 hb; rw [hn] at e; cases e
    refine .inr (.inr ?_)
    rw [loadConfig_panic ha h5 hn, loadConfig_panic hb h6 hn]
    exact ⟨e, _, { x with trace := x.trace ++ [.config path], locked := path :: x.locked }, rfl, rfl⟩

theorem BothSound.ok (E : Env) : SimOk E (BothSound E) (· = none) where
  none := rfl
  forData := fun _ h => by cases h; rfl
  forOptions := fun _ h => by cases h; rfl
  emit := fun _ _ _ h => ⟨⟨h.1.1, h.1.2, h.1.3⟩, ⟨h.2.1, h.2.2, h.2.3⟩⟩
  loadOnce := BothSound.loadOnce E
  dataHash := BothSound.dataHash E
  loadConfig := BothSound.loadConfig E

/-! ### Coherence is kept, whatever the outcome -/

/-- Without an explainer, coherent memories stay coherent. -/
def StaysCoh (E : Env) (s : St) (t : St) : Prop := t.on = none ∧ (Coh E s.v.hashes → Coh E t.v.hashes)

def CohRel (E : Env) : Rel := fun _ m _ => ∀ s r t, s.on = none → m s = some (r, t) → StaysCoh E s t

theorem CohRel.core (E : Env) : CoreV (CohRel E) where
  pure := by
    intro α a s r t ho h
    cases h; exact ⟨ho, id⟩
  bind := by
    intro α β m m' f f' hm hf s r t ho h
    rw [bind_def] at h
    cases hms : m s with
    | none => rw [hms] at h; cases h
    | some x =>
      obtain ⟨a | e, u⟩ := x
      · rw [hms] at h
        have h1 := hm s _ _ ho hms
        have h2 := hf a u r t h1.1 h
        exact ⟨h2.1, fun hc => h2.2 (h1.2 hc)⟩
      · rw [hms] at h
        cases h
        exact hm s _ _ ho hms
  panic := by
    intro α e s r t ho h
    cases h; exact ⟨ho, id⟩
  view := by
    intro s r t ho h
    cases h; exact ⟨ho, id⟩
  withNode := by
    intro α m m' n hm s r t ho h
    unfold Hiera.withNode at h
    rw [if_pos (by rw [ho]; rfl)] at h
    exact hm s r t ho h
  report := by
    intro f _ s r t ho h
    unfold Hiera.report at h
    rw [if_pos (by rw [ho]; rfl)] at h
    cases h; exact ⟨ho, id⟩

theorem CohRel.update {E : Env} {f : View → View} (hf : ∀ v, (f v).hashes = v.hashes) : CohRel E Unit (update f) (update f) := by
  intro s r t ho h
  cases h
  refine ⟨ho, ?_⟩
  show _ → Coh E (f s.v).hashes
  rw [hf]
  exact id

theorem CohRel.withCopy {E : Env} {α : Type} {m m' : M α} (f : Ic → Ic) (g : Option ExplOpts → Option ExplOpts) (hg : g none = none)
    (hm : CohRel E α m m') : CohRel E α (withCopy f g m) (withCopy f g m') := by
  intro s r t ho h
  unfold Hiera.withCopy at h
  cases hms : m { s with v := { s.v with ic := f s.v.ic }, on := g s.on } with
  | none => rw [hms] at h; cases h
  | some x =>
    rw [hms] at h
    cases h
    exact ⟨ho, (hm { s with v := { s.v with ic := f s.v.ic }, on := g s.on } _ _ (by show g s.on = none; rw [ho, hg]) hms).2⟩

theorem CohRel.closed (E : Env) : Closed E (CohRel E) (CohRel E) where
  toCore := (CohRel.core E).toCore
  coreC := (CohRel.core E).toCore
  doWithScope := by
    intro α m m' sc hm
    have c := CohRel.core E
    unfold Hiera.doWithScope
    exact c.bind c.view (fun v => c.bind (CohRel.update (fun _ => rfl)) (fun _ => c.bind hm (fun _ =>
      c.bind (CohRel.update (fun _ => rfl)) (fun _ => c.pure _))))
  newProvider := fun e => (CohRel.core E).bind (CohRel.core E).view (fun v =>
    (CohRel.core E).bind (CohRel.update (fun _ => rfl)) (fun _ => (CohRel.core E).pure _))
  forConfig := by
    intro α m m' hm s r t ho h
    unfold Hiera.forConfig at h
    rw [ho] at h
    exact hm s r t ho h
  forData := by
    intro α m m' hm
    have c := CohRel.core E
    unfold Hiera.forData
    refine c.bind c.view (fun v => ?_)
    by_cases hd : v.ic.mode = .data
    · simp only [hd, ↓reduceIte]; exact hm
    · simp only [hd, ↓reduceIte]; exact CohRel.withCopy _ _ rfl hm
  forLookupOptions := by
    intro α m m' hm
    have c := CohRel.core E
    unfold Hiera.forLookupOptions
    refine c.bind c.view (fun v => ?_)
    by_cases hd : v.ic.mode = .lookupOptions
    · simp only [hd, ↓reduceIte]; exact hm
    · simp only [hd, ↓reduceIte]; exact CohRel.withCopy _ _ rfl hm
  doRedacted := by
    intro α m m' hm s r t ho h
    unfold Hiera.doRedacted at h
    split at h
    · exact hm s r t ho h
    · cases hms : m { s with v := { s.v with ic := { s.v.ic with redacted := true } } } with
      | none => rw [hms] at h; cases h
      | some x =>
        rw [hms] at h
        cases h
        have := hm { s with v := { s.v with ic := { s.v.ic with redacted := true } } } _ _ ho hms
        exact ⟨this.1, this.2⟩
  loadOnce := by
    intro p n s r t ho h
    obtain ⟨l, hl⟩ := loadOnce_run E p n s ho
    rw [hl] at h
    cases h
    exact ⟨ho, id⟩
  emitDig := fun _ _ => CohRel.update (fun _ => rfl)
  emitKey := fun _ _ _ => CohRel.update (fun _ => rfl)
  dataHash := by
    intro p n loc hf s r t ho h
    refine ⟨?_, fun hc => ?_⟩
    · exact (QuietRel.base.dataHash E p n loc s r t ho h).1
    · obtain ⟨hs, ld, tr, h1, h2⟩ := dataHash_coherent E p n loc hf s ho hc
      rw [h1] at h
      cases h
      exact h2
  loadConfig := by
    intro path
    have c := CohRel.core E
    unfold Hiera.loadConfig
    refine c.bind c.view (fun v => ?_)
    cases (assoc path v.parsed).or (elsewhere E v path) with
    | some a => exact c.pure _
    | none =>
      by_cases hl : path ∈ v.locked
      · simp only [hl, ↓reduceIte]; exact fun _ _ _ _ h => nomatch h
      · simp only [hl, ↓reduceIte]
        refine c.bind (CohRel.update (fun _ => rfl)) (fun _ => ?_)
        cases newCfg E.cfg path (E.readYaml path) with
        | ok c' => exact c.bind (CohRel.update (fun _ => rfl)) (fun _ => c.pure _)
        | panic e => exact c.bind (CohRel.update (fun _ => rfl)) (fun _ => c.panic _)
  putConfig := fun _ _ => CohRel.update (fun _ => rfl)
  setLuOpts := fun _ => CohRel.update (fun _ => rfl)
  setStrategy := fun _ => CohRel.update (fun _ => rfl)
  putCache := fun _ _ => CohRel.update (fun _ => rfl)

theorem CohRel.eval (E : Env) (n : Nat) : RecRel (CohRel E) (CohRel E) (eval E n) (eval E n) :=
  (CohRel.closed E).eval (fun _ _ _ _ _ h => nomatch h) (fun _ _ _ _ _ h => nomatch h) n

end Hiera
