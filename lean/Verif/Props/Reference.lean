/- Lookups against the reference (`Spec/Reference.lean`), and what nested lookups leave behind. -/
import Verif.Lemmas.ReferenceSite
import Verif.Lemmas.KeepsIc
import Verif.Props.History
import Verif.Props.Explain
import Verif.Props.Provider

set_option autoImplicit false

namespace Hiera

open Value Spec World

/-! ### The invocation after a nested lookup -/

/-- C77, partially: without the multiplexer, a lookup that returns leaves the scope, the options, the merge strategy, the mode
and the redaction of the invocation as they were, whatever the state and the functions are; so it is for interpolation and
for the lookup functions themselves. Missing: with the multiplexer it is false (`C77_false`), and a failing lookup may
leave another scope (but it ends the lookup that it is part of as well). -/
theorem C77_kept_partial (E : Env) (hF : ∀ e n f, loadFunction E e n = .ok (some (.key f)) → f ≠ .mux) (ht : E.top ≠ .mux) (n : Nat) :
    (∀ k o s v t, (eval E n).lookup k o s = some (.ok v, t) → t.v.ic = s.v.ic) ∧
    (∀ x s v t, (eval E n).interp x true s = some (.ok v, t) → t.v.ic = s.v.ic) ∧
    (∀ f o k s v t, f ≠ .mux → (eval E n).lk f o k s = some (.ok v, t) → t.v.ic = s.v.ic) := by
  have no : ∀ f : LkFn, f ≠ .mux → NoMux f := fun f hf => by
    cases f
    case mux => exact absurd rfl hf
    all_goals trivial
  have h := KeepsIc.eval (E := E) (fun e n f hl => no f (hF e n f hl)) (no _ ht) n
  exact ⟨fun k o s v t => h.lookup k o s v t, fun x s v t => h.interp x s v t, fun f o k s v t hf => h.lkOn f o k (no f hf) s v t⟩

/-! ### Answers -/

theorem Spec.StatelessEnv.tame {E : Env} (he : StatelessEnv E) : TameEnv E := by
  have tame : ∀ f : LkFn, Stateless f → Tame f := fun f h => by cases f <;> first | exact h | trivial
  refine ⟨?_, fun fs f h1 h2 => tame f (he.mux fs f h1 h2), fun n f h => tame f (he.fns n f h).1, fun p n f h => tame f (he.plugins p n f h).1⟩
  rcases he.top with h | ⟨h, _⟩ <;> rw [h] <;> trivial

theorem Spec.StatelessEnv.configFirst {E : Env} (he : StatelessEnv E) : ConfigFirst E := by
  rcases he.top with h | ⟨h, fs, hfs, _⟩
  · exact .inl h
  · exact .inr ⟨h, fs, hfs⟩

theorem refAnswer_open (E : Env) (sc : Scope) {k : Key} (hk : k.root ≠ "lookup_options".toList) (o : Entries) (n m : Nat) :
    refAnswer E sc k o n m = refOpen E (ref E none n) ⟨sc, .call⟩ >>= fun x => refLookup E (some x) (ref E (some x) m) ⟨sc, .call⟩ k o := by
  unfold refAnswer refOpen
  rw [if_neg hk]
  cases newCfg E.cfg E.configPath (E.readYaml E.configPath) with
  | ok c => rfl
  | panic e => rfl

theorem opening_inv {E : Env} {sc : Scope} {s : St} (hs : Inv E none ⟨sc, .call⟩ s) : Inv E none ⟨sc, .call⟩ (opening E s) := by
  unfold opening
  split
  · exact ⟨hs.on, hs.scope, hs.coh, fun _ h => (nomatch h), fun h => (nomatch h), fun hn => ⟨(hs.un hn).1, (hs.un hn).2, (hs.un hn).3⟩⟩
  · exact hs

/-- A lookup with the configuration resolved. -/
theorem lookup_resolved {E : Env} (he : StatelessEnv E) {x : Site} {C : Ctx} {s : St} (hs : Inv E (some x) C s) (k : Key) (o : Entries) (n : Nat) :
    ((eval E (n + 1)).lookup k o s).map Prod.fst = refLookup E (some x) (ref E (some x) n) C k o := by
  have := lookup_sim (RecSim.resolved he x n) he.keyFn (C := C) trivial (fun h => nomatch h) he k o s hs
  show (lookup E (eval E n) k o s).map Prod.fst = _
  generalize refLookup E (some x) (ref E (some x) n) C k o = X at this ⊢
  match X, this with
  | none, h => rw [h]; rfl
  | some (.ok b), ⟨a, u, h, e, _⟩ => rw [h, e]; rfl
  | some (.panic e), ⟨u, h⟩ => rw [h]; rfl

/-- A lookup from a state in which nothing is resolved yet, when the configuration is resolved with fuel `m`. -/
theorem lookup_opened {E : Env} (he : StatelessEnv E) {sc : Scope} {s : St} (hs : Inv E none ⟨sc, .call⟩ s) (hm : s.v.ic.mode = .top)
    (hst : s.v.ic.strategy = none) {k : Key} (hk : k.root ≠ "lookup_options".toList) (o : Entries) {n m : Nat}
    (ho : Opens E m (opening E s) s ((eval E (n + 1)).lookup k o)) :
    ((eval E (n + 1)).lookup k o s).map Prod.fst = refAnswer E sc k o m n := by
  have hc := (open_follows he sc m).1 ⟨sc, .call⟩ _ rfl (opening_inv hs)
  rw [refAnswer_open E sc hk]
  match hr : refOpen E (ref E none m) ⟨sc, .call⟩, hc with
  | none, hc => rw [ho.1 hc]; rfl
  | some (.panic e), ⟨t, hc⟩ =>
    obtain ⟨u, hu⟩ := ho.2.1 e t hc
    rw [hu]; rfl
  | some (.ok x), ⟨rc, t, hc, h1, h2, h3, h4⟩ =>
    rw [ho.2.2 rc t hc]
    have hi : Inv E (some x) ⟨sc, .call⟩ (t.withIc s.v.ic) := ⟨h1, hs.scope, h3, fun y hy => by cases hy; exact ⟨h4.cfg⟩,
      fun _ _ => ⟨by simp, hm, hst⟩, fun h => nomatch h⟩
    exact lookup_resolved he hi k o n

theorem gives_iff {E : Env} {s : St} {k : Key} {o : Entries} {r : Res (Option Value)} :
    Gives E s k o r ↔ ∃ n, ((eval E n).lookup k o s).map Prod.fst = some r := by
  constructor
  · rintro ⟨n, t, h⟩
    exact ⟨n, by rw [h]; rfl⟩
  · rintro ⟨n, h⟩
    cases hr : (eval E n).lookup k o s with
    | none => rw [hr] at h; cases h
    | some x => rw [hr] at h; cases h; exact ⟨n, x.2, hr⟩

theorem lookup_follows {E : Env} (he : StatelessEnv E) {sc : Scope} {s : St} (hs : Inv E none ⟨sc, .call⟩ s) (hm : s.v.ic.mode = .top)
    (hst : s.v.ic.strategy = none) (k : Key) (o : Entries) (r : Res (Option Value)) : Gives E s k o r ↔ Answer E sc k o r := by
  by_cases hk : k.root = "lookup_options".toList
  · have e : ∀ n m, refAnswer E sc k o n m = pure none := fun n m => if_pos hk
    rw [gives_iff]
    constructor
    · rintro ⟨n, h⟩
      cases n with
      | zero => cases h
      | succ n =>
        rw [lookup_hidden E hk o hs.on] at h
        exact ⟨0, 0, (e 0 0).trans h⟩
    · rintro ⟨n, m, h⟩
      rw [e] at h
      exact ⟨1, by rw [lookup_hidden E hk o hs.on]; exact h⟩
  · have op := fun n => lookup_opens he.tame he.configFirst hs.on hm (n := n) hk o
    constructor
    · rintro ⟨n, t, h⟩
      rcases op n with ⟨h1, _⟩ | ⟨m, _, h1⟩
      · rw [h1] at h; cases h
      · cases n with
        | zero => cases h
        | succ n =>
          have := lookup_opened he hs hm hst hk o h1
          rw [h] at this
          exact ⟨m, n, this.symm⟩
    · rintro ⟨n, m, h⟩
      rcases op (n + m + 1 + 1) with ⟨_, h1⟩ | ⟨m', h0, h1⟩
      · omega
      · refine gives_iff.2 ⟨n + m + 1 + 1, ?_⟩
        rw [lookup_opened he hs hm hst hk o h1]
        exact refAnswer_mono (by omega) (by omega) r h

theorem fresh_inv (E : Env) {s : St} (hs : Session E s) (hl : s.v.locked = []) (scope : Scope) :
    Inv E none ⟨scope, .call⟩ (nextInvocation s scope none) :=
  ⟨rfl, rfl, (by intro p n loc h _ ha; cases ha), fun _ h => (nomatch h), fun h => (nomatch h),
    fun _ => ⟨rfl, fun p c hc => C60_as_parsed E hs p c hc, hl⟩⟩

/-- C81: in a new invocation of a session, whatever the session was used for before, with or without an explainer, what a lookup
gives is the answer of the reference: the same value, nothing, the same error, or no end. -/
theorem C81_answer (E : Env) (he : StatelessEnv E) {s : St} (hs : Session E s) (hl : s.v.locked = []) (scope : Scope)
    (ex : Option ExplOpts) (k : Key) (o : Entries) (r : Res (Option Value)) :
    Gives E (nextInvocation s scope ex) k o r ↔ Answer E scope k o r := by
  have h := lookup_follows he (fresh_inv E hs hl scope) rfl rfl k o r
  cases ex with
  | none => exact h
  | some x =>
    rw [← h, gives_iff, gives_iff]
    have : ∀ n, ((eval E n).lookup k o (nextInvocation s scope (some x))).map Prod.fst = ((eval E n).lookup k o (nextInvocation s scope none)).map Prod.fst :=
      fun n => (C27_explain E n k o (nextInvocation s scope none).v x).1
    simp only [this]

/-- C81: a lookup has no end exactly if the reference has no answer. -/
theorem C81_endless (E : Env) (he : StatelessEnv E) {s : St} (hs : Session E s) (hl : s.v.locked = []) (scope : Scope)
    (ex : Option ExplOpts) (k : Key) (o : Entries) :
    (∀ n, (eval E n).lookup k o (nextInvocation s scope ex) = none) ↔ ∀ r, ¬Answer E scope k o r := by
  constructor
  · intro h r ha
    obtain ⟨n, t, hg⟩ := (C81_answer E he hs hl scope ex k o r).2 ha
    rw [h n] at hg
    cases hg
  · intro h n
    cases hr : (eval E n).lookup k o (nextInvocation s scope ex) with
    | none => rfl
    | some x => exact absurd ((C81_answer E he hs hl scope ex k o x.1).1 ⟨n, x.2, hr⟩) (h x.1)

/-- C81 after any earlier lookups of the invocation, with whatever results, if the configuration can be resolved. -/
theorem C81_history (E : Env) (he : StatelessEnv E) {s : St} (hs : Session E s) (hl : s.v.locked = [])
    (scope : Scope) {k0 : Key} (hk0 : k0.root ≠ "lookup_options".toList) {o0 : Entries} {v0 : Option Value}
    (h0 : Answer E scope k0 o0 (.ok v0)) {t : St} (h : History E (nextInvocation s scope none) t)
    (k : Key) (o : Entries) (r : Res (Option Value)) : Gives E t k o r ↔ Answer E scope k o r := by
  rw [C78_history_partial E he.tame he.configFirst hs hl scope hk0 ((C81_answer E he hs hl scope none k0 o0 _).2 h0) h k o r]
  exact C81_answer E he hs hl scope none k o r

/-- There is one answer at most. -/
theorem C81_one (E : Env) (scope : Scope) (k : Key) (o : Entries) {r r' : Res (Option Value)} (h : Answer E scope k o r)
    (h' : Answer E scope k o r') : r = r' := by
  obtain ⟨n, m, h⟩ := h
  obtain ⟨n', m', h'⟩ := h'
  have h1 := refAnswer_mono (Nat.le_max_left n n') (Nat.le_max_left m m') _ h
  have h2 := refAnswer_mono (Nat.le_max_right n n') (Nat.le_max_right m m') _ h'
  rw [h1] at h2
  cases h2
  rfl

/-! ### Several functions -/

theorem during_inv {E : Env} (he : StatelessEnv E) (hm : E.top = .mux) {s : St} (hs : Session E s) (hl : s.v.locked = [])
    {scope : Scope} {k0 : Key} (hk0 : k0.root ≠ "lookup_options".toList) {o0 : Entries} {v0 : Option Value}
    (h0 : Answer E scope k0 o0 (.ok v0)) {t : St} (h : History E (nextInvocation s scope none) t)
    (hr : (assoc E.configPath t.v.configs).isSome = true) :
    ∃ x, (∃ n, refOpen E (ref E none n) ⟨scope, .call⟩ = some (.ok x)) ∧ ∀ ic : Ic, ic.scope = scope → Inv E (some x) ⟨scope, .call⟩ (t.withIc ic) := by
  have hi := fresh_inv E hs hl scope
  obtain ⟨b, hb⟩ := basis he.tame he.configFirst (s0 := nextInvocation s scope none) rfl rfl
    ⟨(by intro p n loc h _ ha; cases ha), fun p c hc => C60_as_parsed E hs p c hc, hl⟩ hk0 ((C81_answer E he hs hl scope none k0 o0 _).2 h0)
  have hmc : E.top ≠ .config := by rw [hm]; simp
  rcases hb.history he.tame h with rfl | h
  · cases hr
  · obtain ⟨m, rc, u, hc, rfl⟩ := hb.from_
    have hf := (open_follows he scope m).1 ⟨scope, .call⟩ _ rfl (opening_inv hi)
    match ho : refOpen E (ref E none m) ⟨scope, .call⟩, hf with
    | none, hf => rw [hf] at hc; cases hc
    | some (.panic e), ⟨t, hf⟩ => rw [hf] at hc; cases hc
    | some (.ok x), ⟨rc', u', hf, h1, h2, h3, h4⟩ =>
      rw [hf] at hc
      cases hc
      refine ⟨x, ⟨m, ho⟩, fun ic hic => ⟨?_, hic, h.coh, fun y hy => ⟨?_⟩, fun _ h => absurd h hmc, fun h => nomatch h⟩⟩
      · exact h.kept.on.trans h1
      · cases hy
        show ∃ rc, assoc E.configPath t.v.configs = some rc ∧ _
        rw [h.kept.configs]
        exact h4.cfg

/-- C77 and C61, partially: with several functions of which the configuration is the first, as for the command line and the
server, it does not matter what a key is looked up for. Whatever the mode, the merge strategy, the options and the redaction of the
lookup in progress are, looking up `k` for its sake gives the answer that `k` has. -/
theorem C77_purpose_partial (E : Env) (he : StatelessEnv E) (hm : E.top = .mux) {s : St} (hs : Session E s) (hl : s.v.locked = [])
    {scope : Scope} {k0 : Key} (hk0 : k0.root ≠ "lookup_options".toList) {o0 : Entries} {v0 : Option Value}
    (h0 : Answer E scope k0 o0 (.ok v0)) {t : St} (h : History E (nextInvocation s scope none) t)
    (hr : (assoc E.configPath t.v.configs).isSome = true) (ic : Ic) (hic : ic.scope = scope) (k : Key) (o : Entries) (r : Res (Option Value)) :
    Gives E (t.withIc ic) k o r ↔ Answer E scope k o r := by
  obtain ⟨x, ⟨m, hx⟩, hi⟩ := during_inv he hm hs hl hk0 h0 h hr
  rw [gives_iff]
  by_cases hk : k.root = "lookup_options".toList
  · have e : ∀ n m, refAnswer E scope k o n m = pure none := fun n m => if_pos hk
    constructor
    · rintro ⟨n, h⟩
      cases n with
      | zero => cases h
      | succ n =>
        rw [lookup_hidden E hk o (hi ic hic).on] at h
        exact ⟨0, 0, (e 0 0).trans h⟩
    · rintro ⟨n, m, h⟩
      rw [e] at h
      exact ⟨1, by rw [lookup_hidden E hk o (hi ic hic).on]; exact h⟩
  · have key : ∀ n, ((eval E (n + 1)).lookup k o (t.withIc ic)).map Prod.fst = refAnswer E scope k o m n := by
      intro n
      rw [lookup_resolved he (hi ic hic) k o n, refAnswer_open E scope hk, hx]
      rfl
    constructor
    · rintro ⟨n, hn⟩
      cases n with
      | zero => cases hn
      | succ n => rw [key] at hn; exact ⟨m, n, hn⟩
    · rintro ⟨n, n', hn⟩
      refine ⟨n' + 1, ?_⟩
      rw [key]
      have h1 := refAnswer_mono (Nat.le_max_left n m) (Nat.le_refl n') r hn
      rw [refAnswer_open E scope hk] at h1 ⊢
      have : refOpen E (ref E none (max n m)) ⟨scope, .call⟩ = refOpen E (ref E none m) ⟨scope, .call⟩ := by
        rw [hx]
        exact AnsLe.bind .rfl (fun c => refSite_le (ref_mono E none (Nat.le_max_right n m)) _ c) _ hx
      rw [← this]
      exact h1

/-- C61, partially: with several functions, a value is interpolated alike in the places where a value from a data file is and
where a value from another kind of function is (which is when the merge is over and there is no merge strategy any more). -/
theorem C61_alike_partial (E : Env) (he : StatelessEnv E) (hm : E.top = .mux) {s : St} (hs : Session E s) (hl : s.v.locked = [])
    {scope : Scope} {k0 : Key} (hk0 : k0.root ≠ "lookup_options".toList) {o0 : Entries} {v0 : Option Value}
    (h0 : Answer E scope k0 o0 (.ok v0)) {t : St} (h : History E (nextInvocation s scope none) t)
    (hr : (assoc E.configPath t.v.configs).isSome = true) (ic ic' : Ic) (hic : ic.scope = scope) (hic' : ic'.scope = scope) (n : Nat) (v : Value) :
    (interpolate E (eval E n) true v (t.withIc ic)).map Prod.fst = (interpolate E (eval E n) true v (t.withIc ic')).map Prod.fst := by
  obtain ⟨x, _, hi⟩ := during_inv he hm hs hl hk0 h0 h hr
  have key : ∀ ic : Ic, ic.scope = scope → (interpolate E (eval E n) true v (t.withIc ic)).map Prod.fst =
      refInterp E (ref E (some x) n) ⟨scope, .call⟩ true v := by
    intro ic hic
    have := interpolate_sim (E := E) (RecSim.resolved he x n).toRecSimG true (fun _ => trivial) v _ (hi ic hic)
    generalize refInterp E (ref E (some x) n) ⟨scope, .call⟩ true v = X at this ⊢
    match X, this with
    | none, h => rw [h]; rfl
    | some (.ok b), ⟨a, u, h, e, _⟩ => rw [h, e]; rfl
    | some (.panic e), ⟨u, h⟩ => rw [h]; rfl
  rw [key ic hic, key ic' hic']

theorem answer_of {E : Env} {scope : Scope} {k : Key} {o : Entries} {r : Res (Option Value)} {n m : Nat}
    (h : (match refAnswer E scope k o n m with
      | some r' => decide (r' = r)
      | none => false) = true) : Answer E scope k o r := by
  refine ⟨n, m, ?_⟩
  match hx : refAnswer E scope k o n m with
  | none => rw [hx] at h; cases h
  | some r' => rw [hx] at h; rw [of_decide_eq_true h]

/-! Concrete cases: merges with values that are looked up, errors, and values without end; a session as the command line makes
it. -/

example : StatelessEnv storiedWorld := ⟨.inl rfl, (fun _ _ h => nomatch h), (fun _ _ h => nomatch h), (fun _ _ _ h => nomatch h)⟩

example : Answer storiedWorld (.map []) ⟨"m".toList, [.name "m".toList]⟩ [] (.ok (some (.map [(s "b", .int 2), (s "a", s "3")]))) :=
  answer_of (n := 1) (m := 4) (by decide +kernel)

example : ∃ e, Answer storiedWorld (.map []) ⟨"bad".toList, [.name "bad".toList]⟩ [] (.panic e) :=
  ⟨.unknownMethod "nofn".toList, answer_of (n := 1) (m := 4) (by decide +kernel)⟩

/-- The command line and the server: the configuration, and then the environment. -/
def commandWorld : Env := { storiedWorld with top := .mux, muxFns := some [.config, .env], environ := ["X=1".toList] }

example : StatelessEnv commandWorld := by
  refine ⟨.inr ⟨rfl, [.env], rfl, by simp⟩, fun fs f h hf => ?_, (fun _ _ h => nomatch h), (fun _ _ _ h => nomatch h)⟩
  cases h
  rcases List.mem_cons.1 hf with h | h
  · subst h; trivial
  · rw [List.mem_singleton.1 h]; trivial

example : Answer commandWorld (.map []) ⟨"m".toList, [.name "m".toList]⟩ [] (.ok (some (.map [(s "b", .int 2), (s "a", s "3")]))) :=
  answer_of (n := 1) (m := 6) (by decide +kernel)

/-- Not vacuous, and where the configuration alone is the top provider it fails (`C61_false`): a value of a `lookup_key` function that
refers to another key. -/
example : let E := { referWorld with top := .mux, muxFns := some [.config, .env] }
    StatelessEnv E ∧ Answer E (.map []) ⟨"x".toList, [.name "x".toList]⟩ [] (.ok (some (s "1"))) := by
  refine ⟨⟨.inr ⟨rfl, [.env], rfl, by simp⟩, fun fs f h hf => ?_, fun n f h => ?_, (fun _ _ _ h => nomatch h)⟩,
    answer_of (n := 1) (m := 6) (by decide +kernel)⟩
  · cases h
    rcases List.mem_cons.1 hf with h | h
    · subst h; trivial
    · rw [List.mem_singleton.1 h]; trivial
  · have hf : referWorld.functions n = some (.key f) := h
    unfold referWorld at hf
    dsimp only at hf
    split at hf
    · cases hf
      exact ⟨fun o k => .ret _, (nomatch ·)⟩
    · cases hf

/-! ### C82 -/

/-- The environment has nothing for a key. -/
def Spec.NotEnv (key : Str) : Prop := key ≠ "env".toList ∧ ¬"env::".toList <+: key

theorem envLookup_none (E : Env) {key : Str} (h : NotEnv key) : envLookup E key = none := by
  unfold envLookup
  rw [if_neg h.1]
  split
  · rename_i n
    exact absurd ⟨n, rfl⟩ h.2
  · rfl

/-- What a function of the command line and of the server has for a key that is not about the environment: the merge strategy is the
one that is asked for, or else the one in `lookup_options`, the hierarchy is searched with it, and what is found is converted as
`lookup_options` say. -/
def Spec.ByOptions (E : Env) (x : Site) (n : Nat) (sc : Scope) (opts : Entries) (key : Str) : Ans (Option Value) := do
  let k ← Ans.of (newKey key)
  let o := strategyNamed (refMergeOption opts (x.optionsOf k))
  let st ← Ans.of (getStrategy o.1 o.2)
  let c ← Ans.of (extractConversion E (x.optionsOf k))
  let v ← refHierarchy E (ref E (some x) n) ⟨sc, .value (some st)⟩ k st x.entries
  Ans.of (convert E (v.map st.convertValue) c)

/-- C82, partially: as the command line and the server are set up, only `lookup_options` say how values are merged and what they are
converted to, for all keys but those of the environment. -/
theorem C82_options_partial (E : Env) (hf : E.muxFns = some [.config, .env]) (x : Site) (n : Nat) (C : Ctx) (opts : Entries) (key : Str)
    (hk : NotEnv key) : refMux E (ref E (some x) (n + 1)) C opts key = ByOptions E x n C.scope opts key := by
  have e := envLookup_none E hk
  unfold refMux ByOptions
  rw [hf]
  dsimp only [List.map]
  have henv : ∀ C, (ref E (some x) (n + 1)).call C .env opts key = pure none := fun C => by
    show (pure (envLookup E key) : Ans (Option Value)) = _
    rw [e]
  have hopt : (ref E (some x) (n + 1)).call { C with within := .options } .config opts key =
      (Ans.of (newKey key) >>= fun k => pure ((x.optionsOf k).map .map)) := rfl
  have hval : ∀ st, (ref E (some x) (n + 1)).call { C with within := .value (some st) } .config opts key =
      (Ans.of (newKey key) >>= fun k => refHierarchy E (ref E (some x) n) ⟨C.scope, .value (some st)⟩ k st x.entries) := fun _ => rfl
  simp only [henv, hopt, hval]
  cases newKey key with
  | panic err => rfl
  | ok k =>
    have h1 : ∀ y : Option Value, refMerge (.deep []) [(pure y : Ans (Option Value)), pure none] = pure y := by
      intro y; cases y <;> rfl
    have h2 : ∀ (st : Strategy) (y : Ans (Option Value)), refMerge st [y, pure none] = y >>= fun v => pure (v.map st.convertValue) := by
      intro st y
      match y with
      | none => cases st <;> rfl
      | some (.panic _) => cases st <;> rfl
      | some (.ok none) => cases st <;> rfl
      | some (.ok (some v)) => cases st <;> rfl
    simp only [Ans.of_ok_bind]
    rw [h1, Ans.pure_bind]
    have h3 : asMap ((x.optionsOf k).map .map) = x.optionsOf k := by cases x.optionsOf k <;> rfl
    simp only [h3, h2]
    cases getStrategy (strategyNamed (refMergeOption opts (x.optionsOf k))).1 (strategyNamed (refMergeOption opts (x.optionsOf k))).2 with
    | panic err => rfl
    | ok st =>
      simp only [Ans.of_ok_bind]
      cases extractConversion E (x.optionsOf k) with
      | panic err => rfl
      | ok c =>
        simp only [Ans.of_ok_bind]
        match refHierarchy E (ref E (some x) n) ⟨C.scope, .value (some st)⟩ k st x.entries with
        | none => rfl
        | some (.panic _) => rfl
        | some (.ok _) => rfl

/-- The answer of the command line and of the server, for a key that is not about the environment. -/
def Spec.commandAnswer (E : Env) (scope : Scope) (k : Key) (opts : Entries) (n m : Nat) : Ans (Option Value) := do
  let c ← Ans.of (newCfg E.cfg E.configPath (E.readYaml E.configPath))
  let x ← refSite E (ref E none n) ⟨scope, .call⟩ c
  match ← ByOptions E x m scope opts k.root with
  | none => pure none
  | some v => do
    let r ← refInterp E (ref E (some x) (m + 1)) ⟨scope, .value none⟩ true v
    pure (r.bind k.digPure)

/-- C82, partially, for whole lookups. -/
theorem C82_answer_partial (E : Env) (he : StatelessEnv E) (ht : E.top = .mux) (hf : E.muxFns = some [.config, .env]) {s : St} (hs : Session E s)
    (hl : s.v.locked = []) (scope : Scope) (ex : Option ExplOpts) {k : Key} (hk : k.root ≠ "lookup_options".toList) (hn : NotEnv k.root)
    (o : Entries) (r : Res (Option Value)) :
    Gives E (nextInvocation s scope ex) k o r ↔ ∃ n m, commandAnswer E scope k o n m = some r := by
  rw [C81_answer E he hs hl]
  have key : ∀ n m, refAnswer E scope k o n (m + 1) = commandAnswer E scope k o n m := by
    intro n m
    unfold refAnswer commandAnswer
    rw [if_neg hk]
    congr 1
    funext c
    congr 1
    funext x
    unfold refLookup
    rw [if_neg hk, ht]
    show refMux E (ref E (some x) (m + 1)) ⟨scope, .call⟩ o k.root >>= _ = _
    rw [C82_options_partial E hf x m ⟨scope, .call⟩ o k.root hn]
    rfl
  constructor
  · rintro ⟨n, m, h⟩
    exact ⟨n, m, by rw [← key]; exact refAnswer_mono (Nat.le_refl n) (Nat.le_succ m) r h⟩
  · rintro ⟨n, m, h⟩
    exact ⟨n, m + 1, by rw [key]; exact h⟩

/-- C82 is false: an environment variable named `merge` decides over the lookup of `env`. -/
theorem C82_false : ∃ (E E' : Env) (k : Key), E' = { E with environ := ["merge=no".toList] } ∧ StatelessEnv E' ∧
    E'.muxFns = some [.config, .env] ∧ (∃ v, Answer E (.map []) k [] (.ok v)) ∧
    Answer E' (.map []) k [] (.panic (.unknownStrategy "no".toList)) := by
  refine ⟨commandWorld, _, ⟨"env".toList, [.name "env".toList]⟩, rfl, ?_, rfl, ?_, ?_⟩
  · refine ⟨.inr ⟨rfl, [.env], rfl, by simp⟩, fun fs f h hf => ?_, (fun _ _ h => nomatch h), (fun _ _ _ h => nomatch h)⟩
    cases h
    rcases List.mem_cons.1 hf with h | h
    · subst h; trivial
    · rw [List.mem_singleton.1 h]; trivial
  · exact ⟨_, answer_of (n := 1) (m := 6) (r := .ok (some (.map [(s "X", s "1")]))) (by decide +kernel)⟩
  · exact answer_of (n := 1) (m := 6) (by decide +kernel)

end Hiera
