/- Resolving the configuration reads all the data that can be asked for, so afterwards the files do not matter. -/
import Verif.Lemmas.Replay

set_option autoImplicit false

namespace Hiera

open Spec

/-- With what a provider is asked: without a location, or with those that exist. -/
def Prov.asked (p : Prov) : List (Option Loc) :=
  match p.entry.locations with
  | none => [none]
  | some ls => (ls.filter (·.exists_)).map some

/-- The data of a provider is known. -/
def KnownIn (p : Prov) (v : View) : Prop :=
  ∀ n, p.entry.function = some (.dataHash, n) → ∀ loc ∈ p.asked, (assoc (p, hashKey loc) v.hashes).isSome = true

/-- The configuration is resolved, and all data that can be asked for is known. -/
def Full (E : Env) (rc : RCfg) (v : View) : Prop :=
  assoc E.configPath v.configs = some rc ∧ ∀ p ∈ rc.providers, KnownIn p v

/-- Data that is known stays known. -/
def MoreKnown (v w : View) : Prop := ∀ k, (assoc k v.hashes).isSome = true → (assoc k w.hashes).isSome = true

theorem MoreKnown.same {v w : View} (h : w.hashes = v.hashes) : MoreKnown v w := fun k hk => by rw [h]; exact hk

theorem MoreKnown.cons (v : View) (x : (Prov × Str) × Entries) : MoreKnown v { v with hashes := x :: v.hashes } := by
  intro k hk
  show (assoc k (x :: v.hashes)).isSome = true
  obtain ⟨k', h⟩ := x
  unfold assoc
  split
  · rfl
  · exact hk

theorem MoreKnown.pre : Pre MoreKnown := ⟨fun _ _ h => h, fun h g k hk => g k (h k hk)⟩

theorem MoreKnown.change (E : Env) : Change E MoreKnown where
  toPre := MoreKnown.pre
  ic := fun _ _ => .same rfl
  nextId := fun _ => .same rfl
  loaded := fun _ _ => .same rfl
  dig := fun _ _ _ => .same rfl
  key := fun _ _ _ _ => .same rfl
  hash := fun p n loc _ => Mono.dataHash MoreKnown.pre (fun _ _ => .same rfl) (fun _ _ _ => .same rfl) (fun v x => .cons v x) p n loc
  config := Mono.loadConfig MoreKnown.pre (fun _ _ => .same rfl) (fun _ _ _ _ _ => .same rfl) (fun _ _ => .same rfl)
  configs := fun _ _ _ => .same rfl
  cache := fun _ _ _ => .same rfl

theorem KnownIn.mono {p : Prov} {v w : View} (h : KnownIn p v) (g : MoreKnown v w) : KnownIn p w :=
  fun n hn loc hl => g _ (h n hn loc hl)

theorem Full.mono {E : Env} {rc : RCfg} {v w : View} (h : Full E rc v) (hc : w.configs = v.configs) (g : MoreKnown v w) : Full E rc w :=
  ⟨by rw [hc]; exact h.1, fun p hp => (h.2 p hp).mono g⟩

/-! ### Resolving the configuration reads everything -/

theorem withNode_ok {α : Type} {n : Node} {m : M α} {s t : St} {a : α} (h : withNode n m s = some (.ok a, t)) :
    ∃ s' t', s'.v = s.v ∧ m s' = some (.ok a, t') ∧ t'.v = t.v := by
  unfold withNode at h
  split at h
  · exact ⟨s, t, rfl, h, rfl⟩
  · cases hp : s.tree.push n with
    | none => rw [hp] at h; cases h
    | some tr =>
      rw [hp] at h
      dsimp only at h
      cases hm : m { s with tree := tr } with
      | none => rw [hm] at h; cases h
      | some x =>
        rw [hm] at h
        obtain ⟨x1, x2⟩ := x
        cases h
        exact ⟨{ s with tree := tr }, x2, rfl, hm, rfl⟩

theorem forLookupOptions_ok {α : Type} {m : M α} {s t : St} {a : α} (h : forLookupOptions m s = some (.ok a, t)) :
    ∃ s' t', m s' = some (.ok a, t') ∧ t'.v.hashes = t.v.hashes := by
  unfold forLookupOptions at h
  rw [bind_ok (show view s = some (.ok s.v, s) from rfl)] at h
  split at h
  · exact ⟨s, t, h, rfl⟩
  · unfold withCopy at h
    cases hm : m { s with v := { s.v with ic := { s.v.ic with mode := .lookupOptions } }, on := explForOptions s.on } with
    | none => rw [hm] at h; cases h
    | some x =>
      rw [hm] at h
      obtain ⟨x1, x2⟩ := x
      cases h
      exact ⟨_, x2, hm, rfl⟩

theorem report_v {f : Node → Node} {s t : St} {a : Unit} (h : report f s = some (.ok a, t)) : t.v = s.v := by
  unfold report at h
  split at h
  · cases h; rfl
  · split at h
    · cases h
    · cases h; rfl

/-- A deep merge asks all variants. -/
theorem mergeLoop_asks {α : Type} {st : Strategy} {f : α → M (Option Value)} (hf : ∀ a, Mono MoreKnown _ (f a) (f a)) (vs : List α) {memo : Option Value} {s t : St}
    {r : Option Value} (h : mergeLoop st f memo vs s = some (.ok r, t)) :
    MoreKnown s.v t.v ∧ ∀ v ∈ vs, ∃ s1 a s2, f v s1 = some (.ok a, s2) ∧ MoreKnown s2.v t.v := by
  induction vs generalizing memo s with
  | nil => cases h; exact ⟨.same rfl, fun v hv => nomatch hv⟩
  | cons x vs ih =>
    unfold mergeLoop at h
    obtain ⟨a, u, h1, h2⟩ := ok_of_bind h
    have h3 : ∃ memo', mergeLoop st f memo' vs u = some (.ok r, t) := by
      cases a with
      | none => exact ⟨_, h2⟩
      | some y => cases memo <;> exact ⟨_, h2⟩
    obtain ⟨memo', h3⟩ := h3
    obtain ⟨h4, h5⟩ := ih h3
    refine ⟨MoreKnown.pre.trans (hf x _ _ _ h1) h4, fun v hv => ?_⟩
    rcases List.mem_cons.1 hv with rfl | hv
    · exact ⟨s, a, u, h1, h4⟩
    · exact h5 v hv

theorem mergeM_asks {α : Type} {o : Entries} {vs : List α} {f : α → M (Option Value)} (hf : ∀ a, Mono MoreKnown _ (f a) (f a)) {s t : St}
    {r : Option Value} (h : mergeM (.deep o) vs f s = some (.ok r, t)) :
    ∀ v ∈ vs, ∃ s1 a s2, f v s1 = some (.ok a, s2) ∧ MoreKnown s2.v t.v := by
  unfold mergeM mergeLookup at h
  match vs with
  | [] => intro v hv; cases hv
  | [x] =>
    intro v hv
    dsimp only at h
    obtain ⟨a, u, h1, h2⟩ := ok_of_bind h
    refine ⟨s, a, u, ?_, ?_⟩
    · rw [List.mem_singleton.1 hv]; exact h1
    · cases a <;> · cases h2; exact .same rfl
  | x :: y :: vs =>
    dsimp only at h
    obtain ⟨s', t', _, h2, h3⟩ := withNode_ok h
    obtain ⟨a, u, h4, h5⟩ := ok_of_bind h2
    have e : u.v = t.v := by
      rw [← h3]
      cases a with
      | none => cases h5; rfl
      | some w =>
        obtain ⟨b, u', h6, h7⟩ := ok_of_bind h5
        cases h7
        exact (report_v h6).symm
    intro v hv
    obtain ⟨s1, b, s2, h6, h7⟩ := (mergeLoop_asks hf _ h4).2 v hv
    exact ⟨s1, b, s2, h6, by rw [← e]; exact h7⟩

theorem dataHash_known {E : Env} {p : Prov} {n : Str} {loc : Option Loc} {s t : St} {a : Entries} (h : dataHash E p n loc s = some (.ok a, t)) :
    (assoc (p, hashKey loc) t.v.hashes).isSome = true := by
  have e : dataHash E p n loc = (view >>= fun v => match assoc (p, hashKey loc) v.hashes with
      | some h => pure h
      | none => callHash E p n (optionsFor p loc) >>= fun h =>
        Hiera.update (fun w => { w with hashes := ((p, hashKey loc), h) :: w.hashes }) >>= fun _ => pure h) := by
    unfold Hiera.dataHash hashKey
    cases loc <;> rfl
  rw [e, bind_ok (show view s = some (.ok s.v, s) from rfl)] at h
  cases ha : assoc (p, hashKey loc) s.v.hashes with
  | some d => rw [ha] at h; cases h; rw [ha]; rfl
  | none =>
    rw [ha] at h
    obtain ⟨d, u, _, h2⟩ := ok_of_bind h
    cases h2
    show (assoc _ (((p, hashKey loc), a) :: u.v.hashes)).isSome = true
    unfold assoc
    rw [if_pos rfl]; rfl

section
variable {E : Env} {rec : Rec} (hr : RecRel (Mono MoreKnown) (Mono MoreKnown) rec rec)
include hr

theorem provLookup_known {p : Prov} {loc : Option Loc} {k : Key} {s t : St} {a : Option Value}
    (h : provLookup E rec p loc k s = some (.ok a, t)) {n : Str} (hn : p.entry.function = some (.dataHash, n)) :
    (assoc (p, hashKey loc) t.v.hashes).isSome = true := by
  unfold provLookup at h
  rw [hn] at h
  have h : (dataHash E p n loc >>= fun d => match Entries.getS d k.root with
    | none => reportResult k.root none
    | some x => do
      let r ← interpolate E rec true x
      reportResult k.root r) s = some (.ok a, t) := h
  obtain ⟨d, u, h1, h2⟩ := ok_of_bind h
  have c := Mono.core MoreKnown.pre
  have hrr : ∀ v, Mono MoreKnown _ (reportResult k.root v) (reportResult k.root v) := by
    intro v; cases v <;> exact c.bind (c.report _ (by grows)) (fun _ => c.pure _)
  have h3 := dataHash_known h1
  cases hg : Entries.getS d k.root with
  | none => rw [hg] at h2; exact hrr _ u _ t h2 _ h3
  | some x =>
    rw [hg] at h2
    exact c.bind (c.toCore.interpolate hr.interp (fun _ => hr.lookup) E x) (fun r => hrr r) u _ t h2 _ h3

theorem mergeLocations_known {p : Prov} {k : Key} {o : Entries} {s t : St} {a : Option Value}
    (h : mergeLocations E rec k (.deep o) p s = some (.ok a, t)) : KnownIn p t.v := by
  have hc : Asking E (Mono MoreKnown) (fun _ => True) Fits := (Mono.closed (MoreKnown.change E)).asking
  intro n hn loc hloc
  unfold mergeLocations at h
  obtain ⟨s', t', _, h2, h3⟩ := withNode_ok h
  rw [← h3]
  unfold Prov.asked at hloc
  have one : ∀ l : Loc, l.exists_ = true → ∀ (s t : St) (a : Option Value), invokeWithLocation E rec p k l s = some (.ok a, t) →
      (assoc (p, hashKey (some l)) t.v.hashes).isSome = true := by
    intro l hl s t a h
    unfold invokeWithLocation at h
    obtain ⟨s', t', _, h2, h3⟩ := withNode_ok h
    rw [if_pos hl] at h2
    rw [← h3]
    exact provLookup_known hr h2 hn
  cases hls : p.entry.locations with
  | none =>
    rw [hls] at h2 hloc
    rw [List.mem_singleton.1 hloc]
    exact provLookup_known hr h2 hn
  | some ls =>
    rw [hls] at h2 hloc
    obtain ⟨l, hl, rfl⟩ := List.mem_map.1 hloc
    obtain ⟨hl, he⟩ := List.mem_filter.1 hl
    match ls with
    | [] => cases hl
    | [l'] =>
      rw [List.mem_singleton.1 hl] at he ⊢
      exact one l' he _ _ _ h2
    | l1 :: l2 :: ls' =>
      obtain ⟨s1, b, s2, h4, h5⟩ := mergeM_asks (fun l => hc.invokeWithLocation hr p k l (fun n hn => ⟨hn, by rw [hls]; rfl⟩)) h2 l hl
      exact h5 _ (one l he _ _ _ h4)

/-- Resolving the configuration reads everything. -/
theorem config_full {s t : St} {rc : RCfg} (h : config E rec E.configPath [] s = some (.ok rc, t)) (hn : assoc E.configPath s.v.configs = none) :
    Full E rc t.v := by
  have hc : Asking E (Mono MoreKnown) (fun _ => True) Fits := (Mono.closed (MoreKnown.change E)).asking
  unfold config at h
  rw [bind_ok (show view s = some (.ok s.v, s) from rfl)] at h
  have e : (if E.configPath = [] then E.configPath else E.configPath) = E.configPath := by split <;> rfl
  rw [e, hn] at h
  obtain ⟨cf, s1, _, h⟩ := ok_of_bind h
  obtain ⟨rc', s2, h2, h⟩ := ok_of_bind h
  cases h
  unfold resolve at h2
  obtain ⟨pd, s3, _, h2⟩ := ok_of_bind h2
  obtain ⟨v, s4, h3, h2⟩ := ok_of_bind h2
  cases h2
  refine ⟨by show assoc _ ((_, _) :: _) = _; unfold assoc; rw [if_pos rfl], fun p hp => ?_⟩
  obtain ⟨u, w, h4, h5⟩ := forLookupOptions_ok h3
  obtain ⟨u', w', _, h6, h7⟩ := withNode_ok h4
  obtain ⟨x1, b, x2, h8, h9⟩ := mergeM_asks (fun p => hc.mergeLocations hr lookupOptionsKey (.deep []) p) h6 p hp
  refine (mergeLocations_known hr h8).mono (MoreKnown.pre.trans h9 (.same ?_))
  show s2.v.hashes = w'.v.hashes
  rw [h7, h5]
end

/-! ### Where everything is known, the files do not matter -/

/-- From states in which everything is known `m` and `m'` do the same, and everything stays known. -/
def Still (E : Env) (rc : RCfg) : Rel := fun _ m m' => ∀ s, Full E rc s.v → m' s = m s ∧ ∀ r t, m s = some (r, t) → Full E rc t.v

section
variable {E : Env} {rc : RCfg}

theorem Still.core : CoreV (Still E rc) where
  pure := fun _ s hs => ⟨rfl, fun r t h => by cases h; exact hs⟩
  bind := by
    intro α β m m' f f' hm hf s hs
    obtain ⟨h1, h2⟩ := hm s hs
    rw [bind_def, bind_def, h1]
    cases hms : m s with
    | none => exact ⟨rfl, fun r t h => nomatch h⟩
    | some x =>
      obtain ⟨a | e, u⟩ := x
      · obtain ⟨h3, h4⟩ := hf a u (h2 _ _ hms)
        exact ⟨h3, h4⟩
      · exact ⟨rfl, fun r t h => by cases h; exact h2 _ _ hms⟩
  panic := fun _ s hs => ⟨rfl, fun r t h => by cases h; exact hs⟩
  view := fun s hs => ⟨rfl, fun r t h => by cases h; exact hs⟩
  withNode := by
    intro α m m' n hm s hs
    unfold Hiera.withNode
    split
    · exact hm s hs
    · cases hp : s.tree.push n with
      | none => exact ⟨rfl, fun r t h => by cases h; exact hs⟩
      | some tr =>
        obtain ⟨h1, h2⟩ := hm { s with tree := tr } hs
        dsimp only
        rw [h1]
        cases hms : m { s with tree := tr } with
        | none => exact ⟨rfl, fun r t h => nomatch h⟩
        | some x => exact ⟨rfl, fun r t h => by cases h; have := h2 _ _ hms; exact ⟨this.1, this.2⟩⟩
  report := by
    intro f _ s hs
    unfold Hiera.report
    split
    · exact ⟨rfl, fun r t h => by cases h; exact hs⟩
    · split
      · exact ⟨rfl, fun r t h => by cases h; exact hs⟩
      · exact ⟨rfl, fun r t h => by cases h; exact hs⟩

theorem Still.hang (α : Type) : Still E rc α Hiera.hang Hiera.hang := fun _ _ => ⟨rfl, fun _ _ h => nomatch h⟩

theorem Still.of_mono {α : Type} {m : M α} (hm : Mono (fun v w => w.configs = v.configs ∧ MoreKnown v w) α m m) : Still E rc α m m :=
  fun s hs => ⟨rfl, fun r t h => hs.mono (hm s r t h).1 (hm s r t h).2⟩

theorem sameConfigs_pre : Pre (fun v w : View => w.configs = v.configs ∧ MoreKnown v w) :=
  ⟨fun _ => ⟨rfl, .same rfl⟩, fun h g => ⟨g.1.trans h.1, MoreKnown.pre.trans h.2 g.2⟩⟩

theorem Still.update {f : View → View} (hc : ∀ v, (f v).configs = v.configs) (hh : ∀ v, (f v).hashes = v.hashes) :
    Still E rc Unit (update f) (update f) := Still.of_mono (Mono.update (fun v => ⟨hc v, .same (hh v)⟩))

theorem Still.withCopy {α : Type} {m m' : M α} (f : Ic → Ic) (g : Option ExplOpts → Option ExplOpts) (hm : Still E rc α m m') :
    Still E rc α (withCopy f g m) (withCopy f g m') := by
  intro s hs
  obtain ⟨h1, h2⟩ := hm { s with v := { s.v with ic := f s.v.ic }, on := g s.on } hs
  unfold Hiera.withCopy
  rw [h1]
  cases hms : m { s with v := { s.v with ic := f s.v.ic }, on := g s.on } with
  | none => exact ⟨rfl, fun r t h => nomatch h⟩
  | some x => exact ⟨rfl, fun r t h => by cases h; have := h2 _ _ hms; exact ⟨this.1, this.2⟩⟩

theorem Still.viewIf {α : Type} {m m' w w' : M α} {md : Mode} (hm : Still E rc α m m') (hw : Still E rc α w w') :
    Still E rc α (view >>= fun v => if v.ic.mode = md then m else w) (view >>= fun v => if v.ic.mode = md then m' else w') := by
  refine Still.core.bind Still.core.view (fun v => ?_)
  split
  · exact hm
  · exact hw

theorem Still.forData {α : Type} {m m' : M α} (hm : Still E rc α m m') : Still E rc α (Hiera.forData m) (Hiera.forData m') :=
  Still.viewIf hm (Still.withCopy _ _ hm)

theorem Still.forLookupOptions {α : Type} {m m' : M α} (hm : Still E rc α m m') :
    Still E rc α (Hiera.forLookupOptions m) (Hiera.forLookupOptions m') :=
  Still.viewIf hm (Still.withCopy _ _ hm)

theorem Still.doRedacted {α : Type} {m m' : M α} (hm : Still E rc α m m') : Still E rc α (Hiera.doRedacted m) (Hiera.doRedacted m') := by
  intro s hs
  obtain ⟨h1, h2⟩ := hm { s with v := { s.v with ic := { s.v.ic with redacted := true } } } hs
  unfold Hiera.doRedacted
  split
  · exact hm s hs
  · rw [h1]
    cases hms : m { s with v := { s.v with ic := { s.v.ic with redacted := true } } } with
    | none => exact ⟨rfl, fun r t h => nomatch h⟩
    | some x => exact ⟨rfl, fun r t h => by cases h; have := h2 _ _ hms; exact ⟨this.1, this.2⟩⟩

/-- What is known need not be read. -/
theorem Still.dataHash (E1 E2 : Env) {p : Prov} {n : Str} {loc : Option Loc} (hp : p ∈ rc.providers)
    (hn : p.entry.function = some (.dataHash, n)) (hl : loc ∈ p.asked) :
    Still E rc _ (Hiera.dataHash E1 p n loc) (Hiera.dataHash E2 p n loc) := by
  have known : ∀ (E' : Env) (t : St) h, assoc (p, hashKey loc) t.v.hashes = some h → Hiera.dataHash E' p n loc t = some (.ok h, t) := by
    intro E' t h ht
    have e : Hiera.dataHash E' p n loc = (view >>= fun v => match assoc (p, hashKey loc) v.hashes with
        | some h => pure h
        | none => callHash E' p n (optionsFor p loc) >>= fun h =>
          Hiera.update (fun w => { w with hashes := ((p, hashKey loc), h) :: w.hashes }) >>= fun _ => pure h) := by
      unfold Hiera.dataHash hashKey
      cases loc <;> rfl
    rw [e, bind_ok (show view t = some (.ok t.v, t) from rfl), ht]
    rfl
  intro s hs
  obtain ⟨h, ha⟩ := Option.isSome_iff_exists.1 (hs.2 p hp n hn loc hl)
  rw [known E1 s h ha, known E2 s h ha]
  exact ⟨rfl, fun r t h => by cases h; exact hs⟩

theorem Still.config (E1 E2 : Env) (h1 : E1.configPath = E.configPath) (h2 : E2.configPath = E.configPath) (rec rec' : Rec)
    {α : Type} {f f' : RCfg → M α} (hf : Still E rc α (f rc) (f' rc)) :
    Still E rc _ (config E1 rec E.configPath [] >>= f) (config E2 rec' E.configPath [] >>= f') := by
  intro s hs
  have e1 := config_path (E := E1) rec [] s (rc := rc) (by rw [h1]; exact hs.1)
  have e2 := config_path (E := E2) rec' [] s (rc := rc) (by rw [h2]; exact hs.1)
  rw [h1] at e1
  rw [h2] at e2
  rw [bind_ok e1, bind_ok e2]
  exact hf s hs

theorem Still.asking (ht : TameEnv E) : Asking E (Still E rc) Tame Fits where
  toCore := Still.core.toCore
  loadOnce := fun p n => Still.of_mono (Mono.loadOnce sameConfigs_pre (fun _ _ => ⟨rfl, .same rfl⟩) p n)
  emitDig := fun _ _ => Still.update (fun _ => rfl) (fun _ => rfl)
  emitKey := fun _ _ _ => Still.update (fun _ => rfl) (fun _ => rfl)
  dataHash := fun p n loc _ => Still.of_mono (Mono.dataHash sameConfigs_pre (fun _ _ => ⟨rfl, .same rfl⟩) (fun _ _ _ => ⟨rfl, .same rfl⟩)
    (fun v x => ⟨rfl, .cons v x⟩) p n loc)
  keyFn := ht.keyFn
  fits := fun _ _ _ h => h

theorem Still.shape (ht : TameEnv E) : Shape E (Still E rc) (Still E rc) where
  r := Still.asking ht
  d := Still.asking ht
  setLuOpts := fun _ => Still.update (fun _ => rfl) (fun _ => rfl)
  setStrategy := fun _ => Still.update (fun _ => rfl) (fun _ => rfl)
  redacted := Still.doRedacted
  optionsR := Still.forLookupOptions
  dataD := Still.forData
  dataR := Still.forData
  config := fun {rec rec'} _ => by
    have := Still.config (E := E) (rc := rc) E E rfl rfl rec rec' (f := pure) (f' := pure) (Still.core.pure rc)
    have e : ∀ m : M RCfg, (m >>= pure) = m := by
      intro m; funext s
      rw [bind_def]
      cases m s with
      | none => rfl
      | some x => obtain ⟨a | e, t⟩ := x <;> rfl
    rw [e, e] at this
    exact this
  tame := ht

variable (f : Files) (ht : TameEnv E) {rec rec' : Rec} (hr : RecRelOn (Still E rc) (Still E rc) Tame rec rec')
include ht hr

theorem Still.provLookup {p : Prov} (hp : p ∈ rc.providers) {loc : Option Loc} (hl : loc ∈ p.asked)
    (hfit : ∀ n, p.entry.function = some (.dataHash, n) → Fits p n loc) (k : Key) :
    Still E rc _ (provLookup E rec p loc k) (provLookup (readingFiles E f) rec' p loc k) := by
  have h := Still.asking (rc := rc) ht
  have h0 := h.provLookup hr p loc k hfit
  unfold Hiera.provLookup at h0 ⊢
  rcases hfn : p.entry.function with _ | ⟨kind, n⟩
  · exact h.panic _
  · rw [hfn] at h0
    cases kind with
    | dataHash =>
      refine h.bind (Still.dataHash E (readingFiles E f) hp hfn hl) (fun hs => ?_)
      cases Entries.getS hs k.root with
      | none => exact h.reportResult _ _
      | some x =>
        dsimp only
        rw [interpolate_readingFiles]
        exact h.bind (h.interpolate hr.interp hr.lookup x) (fun r => h.reportResult _ _)
    | dataDig => exact h0
    | lookupKey => exact h0

theorem Still.invokeWithLocation {p : Prov} (hp : p ∈ rc.providers) {ls : List Loc} (hls : p.entry.locations = some ls) (k : Key) {l : Loc}
    (hl : l ∈ ls) : Still E rc _ (invokeWithLocation E rec p k l) (invokeWithLocation (readingFiles E f) rec' p k l) := by
  have h := Still.asking (rc := rc) ht
  refine h.withNode _ ?_
  by_cases he : l.exists_ = true
  · rw [if_pos he, if_pos he]
    refine Still.provLookup f ht hr hp ?_ (fun n hn => ⟨hn, by rw [hls]; rfl⟩) k
    unfold Prov.asked
    rw [hls]
    exact List.mem_map.2 ⟨l, List.mem_filter.2 ⟨hl, he⟩, rfl⟩
  · rw [if_neg he, if_neg he]; exact h.bind (h.report _ (by grows)) (fun _ => h.pure _)

theorem Still.mergeLocations {p : Prov} (hp : p ∈ rc.providers) (k : Key) (st : Strategy) :
    Still E rc _ (mergeLocations E rec k st p) (mergeLocations (readingFiles E f) rec' k st p) := by
  have h := Still.asking (rc := rc) ht
  refine h.withNode _ ?_
  rcases hls : p.entry.locations with _ | ls
  · exact Still.provLookup f ht hr hp (by unfold Prov.asked; rw [hls]; exact List.mem_singleton.2 rfl) (fun n hn => ⟨hn, by rw [hls]; rfl⟩) k
  · match ls with
    | [] => exact h.pure _
    | [l] => exact Still.invokeWithLocation f ht hr hp hls k (List.mem_singleton.2 rfl)
    | l :: l' :: ls => exact h.mergeM _ _ _ _ (fun a ha => Still.invokeWithLocation f ht hr hp hls k ha)

theorem Still.mergeHierarchy (k : Key) (st : Strategy) :
    Still E rc _ (mergeHierarchy E rec k rc.providers st) (mergeHierarchy (readingFiles E f) rec' k rc.providers st) :=
  (Still.asking (rc := rc) ht).mergeM _ _ _ _ (fun _ hp => Still.mergeLocations f ht hr hp _ _)

theorem Still.configAt (opts : Entries) (key : Str) :
    Still E rc _ (configAt E rec E.configPath opts key []) (configAt (readingFiles E f) rec' E.configPath opts key []) := by
  have h := Still.shape (rc := rc) ht
  unfold Hiera.configAt
  refine Still.config E (readingFiles E f) rfl rfl rec rec' (h.r.bind (h.r.lift _) (fun k => h.r.viewBind (fun v mm => ?_)))
  simp only [View.withMem]
  cases v.ic.mode
  · exact Still.forData (h.r.withNode _ (h.r.bind (h.setMergeStrategy _ _) (fun _ => by
      rw [lookupAndConvert_readingFiles]
      exact h.lookupAndConvert (h.r.bind h.r.currentStrategy (fun st => Still.mergeHierarchy f ht hr _ _)))))
  · exact h.r.pure _
  · exact h.r.bind h.r.currentStrategy (fun st => Still.mergeHierarchy f ht hr _ _)

theorem Still.callLk (g : LkFn) (opts : Entries) (key : Str) (hg : Tame g) :
    Still E rc _ (callLk E rec g opts key) (callLk (readingFiles E f) rec' g opts key) := by
  have h := Still.shape (rc := rc) ht
  have h0 := h.callLk hr hr g opts key hg
  cases g with
  | config => exact Still.configAt f ht hr _ _
  | mux => exact h0
  | env => exact h0
  | scope => exact h0
  | yaml => exact hg.elim
  | module => exact hg.elim
  | custom p =>
    show Still E rc _ _ (runProg (readingFiles E f) rec' (p opts key))
    rw [runProg_readingFiles]
    exact h0
  | notFunction => exact h0

theorem Still.lookup (key : Key) (opts : Entries) :
    Still E rc _ (lookup E rec key opts) (lookup (readingFiles E f) rec' key opts) := by
  have h := Still.shape (rc := rc) ht
  unfold Hiera.lookup
  by_cases hk : key.root = "lookup_options".toList
  · rw [if_pos hk, if_pos hk]
    exact h.r.withNode _ (h.r.bind (h.r.report _ (by grows)) (fun _ => h.r.pure _))
  · rw [if_neg hk, if_neg hk]
    refine h.r.bind (Still.callLk f ht hr _ _ _ ht.top) (fun r => ?_)
    cases r with
    | none => exact h.r.pure _
    | some x =>
      dsimp only
      rw [interpolate_readingFiles]
      exact Still.forData (h.r.bind (h.r.interpolate hr.interp hr.lookup _) (fun r => h.r.dig _ _))

theorem Still.step : RecRelOn (Still E rc) (Still E rc) Tame (step E rec) (step (readingFiles E f) rec') where
  lookup := Still.lookup f ht hr
  interp := fun v => by
    show Still E rc _ _ (interp (readingFiles E f) rec' true v)
    rw [interp_readingFiles]
    exact (Still.shape ht).interp hr v true
  interpC := fun v => by
    show Still E rc _ _ (interp (readingFiles E f) rec' false v)
    rw [interp_readingFiles]
    exact (Still.shape ht).interp hr v false
  lkOn := fun g o k hg => Still.callLk f ht hr g o k hg
end

theorem Still.eval {E : Env} {rc : RCfg} (ht : TameEnv E) (f : Files) (n : Nat) :
    RecRelOn (Still E rc) (Still E rc) Tame (eval E n) (eval (readingFiles E f) n) := by
  induction n with
  | zero => exact ⟨fun _ _ => Still.hang _, fun _ => Still.hang _, fun _ => Still.hang _, fun _ _ _ _ => Still.hang _⟩
  | succ n ih => exact Still.step f ht ih

end Hiera
