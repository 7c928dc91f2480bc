/- Lookups and the earlier lookups of their invocation. -/
import Verif.Lemmas.Steady
import Verif.Lemmas.Coherent
import Verif.Props.Shared

set_option autoImplicit false

namespace Hiera

open Value Spec World

/-! ### The first lookup resolves the configuration -/

theorem config_memo {E : Env} {rec : Rec} {s t : St} {rc : RCfg} (h : config E rec E.configPath [] s = some (.ok rc, t)) :
    assoc E.configPath t.v.configs = some rc := by
  cases ha : assoc E.configPath s.v.configs with
  | some rc' =>
    rw [config_path rec [] s ha] at h
    cases h
    exact ha
  | none =>
    unfold config at h
    rw [bind_ok (show view s = some (.ok s.v, s) from rfl)] at h
    have : (if E.configPath = [] then E.configPath else E.configPath) = E.configPath := by split <;> rfl
    simp only [this, ha] at h
    obtain ⟨c, u, _, h⟩ := ok_of_bind h
    obtain ⟨rc', w, _, h⟩ := ok_of_bind h
    obtain ⟨_, x, h1, h⟩ := ok_of_bind h
    cases h1
    cases h
    exact if_pos rfl

theorem config_le (E : Env) {n m : Nat} (h : n ≤ m) {s : St} {r : Res RCfg × St} (hr : config E (eval E n) E.configPath [] s = some r) :
    config E (eval E m) E.configPath [] s = some r :=
  (Le.base.closed E Le.forConfig).config (eval_le E h) _ _ s r hr

/-- Another `Ic`. -/
def St.withIc (s : St) (ic : Ic) : St := { s with v := { s.v with ic := ic } }

/-- What `x` does from `s0` starts with resolving the configuration, from `c` and with fuel `m`. -/
def Opens (E : Env) (m : Nat) (c s0 : St) {α : Type} (x : M α) : Prop :=
  (config E (eval E m) E.configPath [] c = none → x s0 = none) ∧
  (∀ e t, config E (eval E m) E.configPath [] c = some (.panic e, t) → ∃ u, x s0 = some (.panic e, u)) ∧
  (∀ rc t, config E (eval E m) E.configPath [] c = some (.ok rc, t) → x s0 = x (t.withIc s0.v.ic))

theorem Opens.bind {E : Env} {m : Nat} {c s0 : St} {α β : Type} {x : M α} (h : Opens E m c s0 x) (f : α → M β) :
    Opens E m c s0 (x >>= f) := by
  refine ⟨fun hn => bind_none (h.1 hn), fun e t hp => ?_, fun rc t ho => ?_⟩
  · obtain ⟨u, hu⟩ := h.2.1 e t hp
    exact ⟨u, bind_panic hu⟩
  · rw [bind_def, bind_def, h.2.2 rc t ho]

section
variable {E : Env} (ht : TameEnv E) {m : Nat} {c : St} (ho : c.on = none) (hm : c.v.ic.mode ≠ .data)
include ht ho hm

theorem Opens.config : Opens E m c c (config E (eval E m) E.configPath []) := by
  refine ⟨id, fun e t hp => ⟨t, hp⟩, fun rc t h => ?_⟩
  obtain ⟨_, h2⟩ := config_leaves ht m ho hm h
  have e : t.withIc c.v.ic = t := by rw [← h2]; rfl
  rw [e, h]
  exact (config_path (eval E m) [] t (config_memo h)).symm

theorem Opens.configAt (o : Entries) (k : Str) : Opens E m c c (configAt E (eval E m) E.configPath o k []) :=
  (Opens.config ht ho hm).bind _

theorem Opens.withNode {α : Type} {x : M α} (n : Node) (h : Opens E m c c x) : Opens E m c c (withNode n x) := by
  have e : ∀ s : St, s.on = none → Hiera.withNode n x s = x s := fun s hs => by
    unfold Hiera.withNode
    rw [hs]; rfl
  rw [Opens, e c ho]
  refine ⟨h.1, h.2.1, fun rc t hc => ?_⟩
  rw [e (t.withIc c.v.ic) (config_leaves ht m ho hm hc).1]
  exact h.2.2 rc t hc

theorem Opens.mergeM (fs : List LkFn) (o : Entries) (k : Str) :
    Opens E m c c (mergeM (.deep []) (.config :: fs) (fun f => (eval E (m + 1)).lk f o k)) := by
  have h := Opens.configAt ht (m := m) ho hm o k
  cases fs with
  | nil => exact h.bind _
  | cons f fs => exact Opens.withNode ht ho hm _ ((h.bind _).bind _)

theorem Opens.forLookupOptions {α : Type} {s0 : St} {x : M α} (hs : c = s0.withIc { s0.v.ic with mode := .lookupOptions })
    (ho0 : s0.v.ic.mode = .top) (h : Opens E m c c x) : Opens E m c s0 (forLookupOptions x) := by
  have e : ∀ s : St, s.v.ic = s0.v.ic → s.on = none → Hiera.forLookupOptions x s =
      match x (s.withIc { s0.v.ic with mode := .lookupOptions }) with
      | none => none
      | some (r, s') => some (r, { s'.withIc s0.v.ic with on := none }) := by
    intro s h1 h2
    unfold Hiera.forLookupOptions
    rw [bind_ok (show view s = some (.ok s.v, s) from rfl), if_neg (by rw [h1, ho0]; decide)]
    unfold withCopy
    rw [h1, h2]
    have : ({ s with v := { s.v with ic := { s0.v.ic with mode := .lookupOptions } }, on := explForOptions none } : St) =
        s.withIc { s0.v.ic with mode := .lookupOptions } := by
      cases s; cases h2; rfl
    rw [this]
    rfl
  have h0 : s0.on = none := by rw [hs] at ho; exact ho
  have e0 := e s0 rfl h0
  rw [← hs] at e0
  rw [Opens, e0]
  refine ⟨fun hn => by rw [h.1 hn], fun er t hp => ?_, fun rc t hc => ?_⟩
  · obtain ⟨u, hu⟩ := h.2.1 er t hp
    rw [hu]
    exact ⟨_, rfl⟩
  · have e1 : (t.withIc s0.v.ic).withIc { s0.v.ic with mode := .lookupOptions } = t.withIc c.v.ic := by rw [hs]; rfl
    rw [e (t.withIc s0.v.ic) rfl (config_leaves ht m ho hm hc).1, e1, ← h.2.2 rc t hc]

end

/-- Where lookups resolve the configuration from. -/
def opening (E : Env) (s0 : St) : St :=
  match E.top with
  | .mux => s0.withIc { s0.v.ic with mode := .lookupOptions }
  | _ => s0

theorem lookup_opens {E : Env} (ht : TameEnv E) (hc : ConfigFirst E) {s0 : St} (ho : s0.on = none) (hm : s0.v.ic.mode = .top) {n : Nat} {k : Key}
    (hk : k.root ≠ "lookup_options".toList) (o : Entries) :
    ((eval E n).lookup k o s0 = none ∧ n < 2) ∨ ∃ m, n ≤ m + 2 ∧ Opens E m (opening E s0) s0 ((eval E n).lookup k o) := by
  rcases hc with hc | ⟨hc, fs, hfs⟩
  · cases n with
    | zero => exact .inl ⟨rfl, by decide⟩
    | succ m =>
      refine .inr ⟨m, by omega, ?_⟩
      show Opens E m (opening E s0) s0 (lookup E (eval E m) k o)
      unfold lookup opening
      rw [if_neg hk, hc]
      exact (Opens.configAt ht ho (by rw [hm]; decide) o k.root).bind _
  · cases n with
    | zero => exact .inl ⟨rfl, by decide⟩
    | succ n =>
      cases n with
      | zero =>
        refine .inl ⟨?_, by decide⟩
        show lookup E (eval E 0) k o s0 = none
        unfold lookup
        rw [if_neg hk, hc]
        refine bind_none ?_
        show muxLookup E (eval E 0) o k.root s0 = none
        unfold muxLookup
        rw [hfs]
        refine bind_none ?_
        unfold forLookupOptions
        rw [bind_ok (show view s0 = some (.ok s0.v, s0) from rfl), if_neg (by rw [hm]; decide)]
        unfold withCopy
        have : ∀ c : St, c.on = none → mergeM (.deep []) (.config :: fs) (fun f => (eval E 0).lk f o k.root) c = none := by
          intro c hoc
          cases fs with
          | nil => rfl
          | cons f fs =>
            unfold mergeM mergeLookup
            dsimp only
            unfold withNode
            rw [hoc]
            rfl
        rw [this _ (by rw [ho]; rfl)]
      | succ m =>
        refine .inr ⟨m, by omega, ?_⟩
        show Opens E m (opening E s0) s0 (lookup E (eval E (m + 1)) k o)
        unfold lookup opening
        rw [if_neg hk, hc]
        refine Opens.bind ?_ _
        show Opens E m _ s0 (muxLookup E (eval E (m + 1)) o k.root)
        unfold muxLookup
        rw [hfs]
        have h1 : (s0.withIc { s0.v.ic with mode := .lookupOptions }).on = none := ho
        have h2 : (s0.withIc { s0.v.ic with mode := .lookupOptions }).v.ic.mode ≠ .data := by intro h; cases h
        exact (Opens.forLookupOptions ht h1 h2 rfl hm (Opens.mergeM ht h1 h2 fs o k.root)).bind _

/-! ### Histories -/

theorem lookup_hidden (E : Env) {n : Nat} {k : Key} (hk : k.root = "lookup_options".toList) (o : Entries) {s : St} (ho : s.on = none) :
    (eval E (n + 1)).lookup k o s = some (.ok none, s) := by
  show lookup E (eval E n) k o s = _
  unfold lookup
  rw [if_pos hk]
  unfold withNode
  rw [ho, if_pos (by rfl), bind_ok (show report (.notFound k.source) s = some (.ok (), s) by unfold report; rw [ho]; rfl)]
  rfl

/-- From where lookups have the outcome and the final state that they have from `s0`, and which stays as it is. -/
structure Basis (E : Env) (s0 b : St) : Prop where
  on0 : s0.on = none
  ready : Resolved E b
  mode : b.v.ic.mode = .top
  sound : Sound E b.v.mem
  same : ∃ N, ∀ n k o, N ≤ n → k.root ≠ "lookup_options".toList → (eval E n).lookup k o s0 = (eval E n).lookup k o b
  from_ : ∃ m rc t, config E (eval E m) E.configPath [] (opening E s0) = some (.ok rc, t) ∧ b = t.withIc s0.v.ic

theorem opening_on {E : Env} {s0 : St} (ho : s0.on = none) : (opening E s0).on = none := by
  unfold opening; split <;> exact ho

theorem opening_mode {E : Env} {s0 : St} (hm : s0.v.ic.mode = .top) : (opening E s0).v.ic.mode ≠ .data := by
  unfold opening
  split
  · intro h; cases h
  · rw [hm]; decide

theorem opening_mem {E : Env} {s0 : St} : (opening E s0).v.mem = s0.v.mem := by
  unfold opening; split <;> rfl

theorem St.withMem_mem (s : St) : s.withMem s.v.mem = s := rfl

theorem basis {E : Env} (ht : TameEnv E) (hc : ConfigFirst E) {s0 : St} (ho : s0.on = none) (hm : s0.v.ic.mode = .top)
    (hs : Sound E s0.v.mem) {k : Key} (hk : k.root ≠ "lookup_options".toList) {o : Entries} {v : Option Value}
    (h : Gives E s0 k o (.ok v)) : ∃ b, Basis E s0 b := by
  obtain ⟨n, u, h⟩ := h
  rcases lookup_opens ht hc ho hm (n := n) hk o with ⟨h1, _⟩ | ⟨m, _, h1⟩
  · rw [h1] at h; cases h
  · cases hr : config E (eval E m) E.configPath [] (opening E s0) with
    | none => rw [h1.1 hr] at h; cases h
    | some x =>
      obtain ⟨rc | e, t⟩ := x
      · have ho1 := opening_on (E := E) ho
        have hm1 := opening_mode (E := E) hm
        have hl := config_leaves ht m ho1 hm1 hr
        refine ⟨t.withIc s0.v.ic, ho, ⟨hl.1, by show (assoc E.configPath t.v.configs).isSome = true; rw [config_memo hr]; rfl⟩, hm, ?_,
          ⟨m + 2, fun n k o hn hk => ?_⟩, m, rc, t, hr, rfl⟩
        · have := (Sim.closed (BothSound.ok E)).config (Sim.eval (BothSound.ok E) m) E.configPath [] (opening E s0) (opening E s0).v.mem ho1
            (by rw [opening_mem]; exact ⟨hs, hs⟩)
          rcases this with ⟨h2, _⟩ | ⟨a, t', y, h2, _, _, h3⟩ | ⟨e, t', y, h2, _⟩
          · rw [hr] at h2; cases h2
          · rw [hr] at h2; cases h2; exact h3.1
          · rw [hr] at h2; cases h2
        · rcases lookup_opens ht hc ho hm (n := n) hk o with ⟨_, h2⟩ | ⟨m', h2, h3⟩
          · omega
          · exact h3.2.2 rc t (config_le E (by omega) hr)
      · obtain ⟨u', h2⟩ := h1.2.1 e t hr
        rw [h2] at h; cases h

theorem Basis.gives {E : Env} {s0 b : St} (h : Basis E s0 b) (k : Key) (o : Entries) (r : Res (Option Value)) :
    Gives E s0 k o r ↔ Gives E b k o r := by
  by_cases hk : k.root = "lookup_options".toList
  · have : ∀ s : St, s.on = none → (Gives E s k o r ↔ r = .ok none) := by
      intro s ho
      constructor
      · rintro ⟨n, t, hn⟩
        cases n with
        | zero => cases hn
        | succ n => rw [lookup_hidden E hk o ho] at hn; cases hn; rfl
      · rintro rfl
        exact ⟨1, s, lookup_hidden E hk o ho⟩
    rw [this s0 h.on0, this b h.ready.1]
  · obtain ⟨N, hN⟩ := h.same
    constructor
    · rintro ⟨n, t, hn⟩
      refine ⟨max n N, t, ?_⟩
      rw [← hN _ k o (Nat.le_max_right n N) hk]
      exact (eval_le E (Nat.le_max_left n N)).lookup k o _ _ hn
    · rintro ⟨n, t, hn⟩
      refine ⟨max n N, t, ?_⟩
      rw [hN _ k o (Nat.le_max_right n N) hk]
      exact (eval_le E (Nat.le_max_left n N)).lookup k o _ _ hn

/-- A state after some lookups. -/
structure Later (E : Env) (b s : St) : Prop where
  kept : Unmoved b s
  ic : s.v.ic = b.v.ic
  coh : Coh E s.v.hashes

theorem Later.step {E : Env} (ht : TameEnv E) {b s t : St} {n : Nat} {k : Key} {o : Entries} {r : Res (Option Value)} (hr : Resolved E b)
    (hm : b.v.ic.mode = .top) (h : Later E b s) (hn : (eval E n).lookup k o s = some (r, t)) : Later E b t := by
  have hs := h.kept.ready hr
  obtain ⟨h1, h2⟩ := lookup_stays ht n k o hs (by rw [h.ic, hm]; decide) hn
  exact ⟨h.kept.trans h1, h2.trans h.ic, ((CohRel.eval E n).lookup k o s r t hs.1 hn).2 h.coh⟩

theorem Later.gives {E : Env} {s0 b s : St} (hb : Basis E s0 b) (h : Later E b s) (k : Key) (o : Entries) (r : Res (Option Value)) :
    Gives E b k o r ↔ Gives E s k o r := by
  have e : b.withMem s.v.mem = s := by
    obtain ⟨⟨h1, h2, h3, h4, h5, _, _⟩, h6, _⟩ := h
    cases s with
    | mk v on tree => cases v; cases h1; cases h2; cases h3; cases h4; cases h5; cases h6; rfl
  have hs : Sound E s.v.mem := ⟨h.coh, fun p c hc => hb.sound.parsed p c (by
    have hc : assoc p s.v.parsed = some c := hc
    rw [h.kept.parsed] at hc; exact hc), h.kept.locked.trans hb.sound.locked⟩
  constructor
  · rintro ⟨n, t, hn⟩
    have := (Sim.eval (BothSound.ok E) n).lookup k o b s.v.mem hb.ready.1 ⟨hb.sound, hs⟩
    rw [e, hn] at this
    rcases this with ⟨h2, _⟩ | ⟨a, t', y, h2, h3, _⟩ | ⟨er, t', y, h2, h3⟩
    · cases h2
    · cases h2; exact ⟨n, _, h3⟩
    · cases h2; exact ⟨n, _, h3⟩
  · rintro ⟨n, t, hn⟩
    have := (Sim.eval (BothSound.ok E) n).lookup k o b s.v.mem hb.ready.1 ⟨hb.sound, hs⟩
    rw [e, hn] at this
    rcases this with ⟨_, h2⟩ | ⟨a, t', y, h3, h2, _⟩ | ⟨er, t', y, h3, h2⟩
    · cases h2
    · cases h2; exact ⟨n, _, h3⟩
    · cases h2; exact ⟨n, _, h3⟩

theorem Basis.history {E : Env} (ht : TameEnv E) {s0 b s : St} (hb : Basis E s0 b) (h : History E s0 s) : s = s0 ∨ Later E b s := by
  induction h with
  | start => exact .inl rfl
  | @lookup s t r n k o _ hn ih =>
    rcases ih with rfl | ih
    · by_cases hk : k.root = "lookup_options".toList
      · cases n with
        | zero => cases hn
        | succ n => rw [lookup_hidden E hk o hb.on0] at hn; cases hn; exact .inl rfl
      · obtain ⟨N, hN⟩ := hb.same
        have h1 := (eval_le E (Nat.le_max_left n N)).lookup k o _ _ hn
        rw [hN _ k o (Nat.le_max_right n N) hk] at h1
        exact .inr (Later.step ht hb.ready hb.mode ⟨.refl _, rfl, hb.sound.hashes⟩ h1)
    · exact .inr (ih.step ht hb.ready hb.mode hn)

/-- C78, partially: in an invocation whose configuration can be resolved, what a lookup gives (a value, nothing, an error, or
no end) is the same whatever has been looked up before in the same invocation, with whatever results. This is for
invocations without explainer, with the configuration as the top provider or as the first of several, and for lookup
functions that use neither the functions' cache nor other configurations. Missing: a configuration that fails to load
makes later lookups wait forever (`C78_false`), functions may use the cache to remember what they were asked
(`C78_cache`), and lookups in modules are not covered. -/
theorem C78_history_partial (E : Env) (ht : TameEnv E) (hc : ConfigFirst E) {s : St} (hs : Session E s) (hl : s.v.locked = [])
    (scope : Scope) {k0 : Key} (hk0 : k0.root ≠ "lookup_options".toList) {o0 : Entries} {v0 : Option Value}
    (h0 : Gives E (nextInvocation s scope none) k0 o0 (.ok v0)) {t : St} (h : History E (nextInvocation s scope none) t)
    (k : Key) (o : Entries) (r : Res (Option Value)) :
    Gives E t k o r ↔ Gives E (nextInvocation s scope none) k o r := by
  obtain ⟨b, hb⟩ := basis ht hc (s0 := nextInvocation s scope none) rfl rfl
    ⟨(by intro p n loc h _ ha; cases ha), fun p c hc => C60_as_parsed E hs p c hc, hl⟩ hk0 h0
  rcases hb.history ht h with rfl | h
  · exact Iff.rfl
  · rw [hb.gives, h.gives hb]

/-- C78 fails where the configuration does not load: the first lookup fails, and those after it have no end. -/
theorem C78_false : ∃ (E : Env) (s t : St), TameEnv E ∧ ConfigFirst E ∧ s = newInvocation (.map []) none ∧ History E s t ∧
    ∃ (k : Key) (e : Err), Gives E s k [] (.panic e) ∧ ∀ r, ¬ Gives E t k [] r := by
  have h : (match (eval brokenWorld 1).lookup ⟨"x".toList, [.name "x".toList]⟩ [] (newInvocation (.map []) none) with
    | some (.panic _, t) => decide (t.v.locked = ["/h/hiera.yaml".toList]) && (t.v.parsed.isEmpty) && t.v.configs.isEmpty
    | _ => false) = true := by decide +kernel
  cases hr : (eval brokenWorld 1).lookup ⟨"x".toList, [.name "x".toList]⟩ [] (newInvocation (.map []) none) with
  | none => rw [hr] at h; cases h
  | some x =>
    obtain ⟨a | e, t⟩ := x
    · rw [hr] at h; cases h
    · rw [hr] at h
      simp only [Bool.and_eq_true, decide_eq_true_eq, List.isEmpty_iff] at h
      refine ⟨brokenWorld, _, t, ⟨trivial, (fun _ _ h => nomatch h), (fun _ _ h => nomatch h), (fun _ _ _ h => nomatch h)⟩, .inl rfl, rfl,
        .lookup 1 _ [] .start hr, ⟨"x".toList, [.name "x".toList]⟩, e, ⟨1, t, hr⟩, ?_⟩
      rintro r ⟨n, u, hn⟩
      rw [C60_hangs brokenWorld t rfl (by rw [h.1.1]; exact List.mem_singleton.2 rfl) (by rw [h.1.2]; rfl) (by rw [h.2]; rfl) (fun c h => by cases h) n _
        (by decide +kernel) []] at hn
      cases hn

theorem gives_of {E : Env} {n : Nat} {k : Key} {s : St} {r : Res (Option Value)}
    (h : (outcome ((eval E n).lookup k [] s)).map (·.1) = some r) : Gives E s k [] r := by
  cases hr : (eval E n).lookup k [] s with
  | none => rw [hr] at h; cases h
  | some x =>
    obtain ⟨r', t⟩ := x
    rw [hr] at h
    cases h
    exact ⟨n, t, hr⟩

/-- A session with a lookup function that answers once. -/
def onceWorld : Env :=
  { mk (cfg [.map [(s "name", s "o"), (s "lookup_key", s "once")]]) [] with
    functions := fun n => if n = "once".toList then some (.key (.custom (fun _ k => if k = "x".toList then
      .cachedValue "asked".toList (fun r => match r with
        | some _ => .ret none
        | none => .cache "asked".toList (.bool true) (fun _ => .ret (some (.int 1))))
      else .ret none))) else none }

/-- C78 fails where functions use the cache to remember that they were asked. -/
theorem C78_cache : ConfigFirst onceWorld ∧ ∃ t, History onceWorld (newInvocation (.map []) none) t ∧
    Gives onceWorld (newInvocation (.map []) none) ⟨"x".toList, [.name "x".toList]⟩ [] (.ok (some (.int 1))) ∧
    Gives onceWorld t ⟨"x".toList, [.name "x".toList]⟩ [] (.ok none) := by
  have h : (match (eval onceWorld 3).lookup ⟨"x".toList, [.name "x".toList]⟩ [] (newInvocation (.map []) none) with
    | some (.ok v, t) => decide (v = some (.int 1)) && decide
      ((outcome ((eval onceWorld 3).lookup ⟨"x".toList, [.name "x".toList]⟩ [] t)).map (·.1) = some (.ok none))
    | _ => false) = true := by decide +kernel
  refine ⟨.inl rfl, ?_⟩
  cases hr : (eval onceWorld 3).lookup ⟨"x".toList, [.name "x".toList]⟩ [] (newInvocation (.map []) none) with
  | none => rw [hr] at h; cases h
  | some x =>
    obtain ⟨a | e, t⟩ := x
    · rw [hr] at h
      simp only [Bool.and_eq_true, decide_eq_true_eq] at h
      exact ⟨t, .lookup 3 _ [] .start hr, ⟨3, t, by rw [hr, h.1]⟩, gives_of h.2⟩
    · rw [hr] at h; cases h

/-- Two levels, with a value that looks up another, options that merge, and a broken value. -/
def storiedWorld : Env :=
  two [(s "lookup_options", .map [(s "m", .map [(s "merge", s "hash")])]), (s "m", .map [(s "a", s "%{lookup('n')}")]), (s "bad", s "%{nofn('x')}")]
    [(s "m", .map [(s "b", .int 2)]), (s "n", s "3")]

/-- Not vacuous: in a session like the one meant, an invocation looks up what fails, then what takes another lookup. -/
example : TameEnv storiedWorld ∧ ConfigFirst storiedWorld ∧
    Gives storiedWorld (newInvocation (.map []) none) ⟨"n".toList, [.name "n".toList]⟩ [] (.ok (some (s "3"))) ∧
    ∃ t e, History storiedWorld (newInvocation (.map []) none) t ∧
      Gives storiedWorld (newInvocation (.map []) none) ⟨"bad".toList, [.name "bad".toList]⟩ [] (.panic e) ∧
      t.v.hashes.length = 2 ∧
      Gives storiedWorld t ⟨"m".toList, [.name "m".toList]⟩ [] (.ok (some (.map [(s "b", .int 2), (s "a", s "3")]))) := by
  refine ⟨⟨trivial, (fun _ _ h => nomatch h), (fun _ _ h => nomatch h), (fun _ _ _ h => nomatch h)⟩, .inl rfl,
    gives_of (n := 3) (by decide +kernel), ?_⟩
  have h' : (match (eval storiedWorld 3).lookup ⟨"bad".toList, [.name "bad".toList]⟩ [] (newInvocation (.map []) none) with
    | some (.panic _, t) => decide (t.v.hashes.length = 2) && decide
      ((outcome ((eval storiedWorld 5).lookup ⟨"m".toList, [.name "m".toList]⟩ [] t)).map (·.1) =
        some (.ok (some (.map [(s "b", .int 2), (s "a", s "3")]))))
    | _ => false) = true := by decide +kernel
  cases hr : (eval storiedWorld 3).lookup ⟨"bad".toList, [.name "bad".toList]⟩ [] (newInvocation (.map []) none) with
  | none => rw [hr] at h'; cases h'
  | some x =>
    obtain ⟨a | e, t⟩ := x
    · rw [hr] at h'; cases h'
    · rw [hr] at h'
      simp only [Bool.and_eq_true, decide_eq_true_eq] at h'
      exact ⟨t, e, .lookup 3 _ [] .start hr, ⟨3, t, hr⟩, h'.1, gives_of h'.2⟩

end Hiera
