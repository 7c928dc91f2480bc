/- C83: what the command line prints and what the server answers. -/
import Verif.Spec.Printed
import Verif.Props.Reference
import Verif.Props.Rest
import Verif.Lemmas.Unlocked

set_option autoImplicit false

namespace Hiera
open Value Spec World

/-! ### Lookups one after the other, with or without an explainer -/

/-- A state without explainer in which all lookups have their answers. -/
structure CalmOff (E : Env) (s : St) (scope : Scope) (t : St) : Prop where
  history : History E (nextInvocation s scope none) t
  tree : IsAt t.tree
  fresh : t = nextInvocation s scope none ∨ ∃ k o v, k.root ≠ "lookup_options".toList ∧ Answer E scope k o (.ok v)

/-- The same, with or without an explainer. -/
def Calm (E : Env) (s : St) (scope : Scope) (t : St) : Prop := IsAt t.tree ∧ ∃ u, CalmOff E s scope u ∧ t.v = u.v

theorem Calm.start (E : Env) (s : St) (scope : Scope) (ex : Option ExplOpts) : Calm E s scope (nextInvocation s scope ex) :=
  ⟨isAt_at _ _, nextInvocation s scope none, ⟨.start, isAt_at _ _, .inl rfl⟩, rfl⟩

theorem CalmOff.gives {E : Env} (he : StatelessEnv E) {s : St} (hs : Session E s) (hl : s.v.locked = []) {scope : Scope} {t : St}
    (h : CalmOff E s scope t) (k : Key) (o : Entries) (r : Res (Option Value)) : Gives E t k o r ↔ Answer E scope k o r := by
  rcases h.fresh with e | ⟨k0, o0, v0, hk0, h0⟩
  · rw [e]; exact C81_answer E he hs hl scope none k o r
  · exact C81_history E he hs hl scope hk0 h0 h.history k o r

theorem CalmOff.on {E : Env} {s : St} {scope : Scope} {t : St} (h : CalmOff E s scope t) : t.on = none := by
  have key : ∀ {u : St}, History E (nextInvocation s scope none) u → u.on = none ∧ IsAt u.tree := by
    intro u hu
    induction hu with
    | start => exact ⟨rfl, isAt_at _ _⟩
    | @lookup u w r n k o _ hn ih =>
      have := (NI.eval E n).lookup k o u u rfl ih.2 ih.2
      rcases this.elim with ⟨h1, _⟩ | ⟨a, x, y, h1, _, _, h4, _⟩ | ⟨e, x, y, h1, _, h4, _⟩
      · rw [hn] at h1; cases h1
      · rw [hn] at h1; cases h1; exact ⟨h4.1.trans ih.1, h4.2.right⟩
      · rw [hn] at h1; cases h1; exact ⟨h4.1.trans ih.1, h4.2.right⟩
  exact (key h.history).1

theorem Calm.gives {E : Env} (he : StatelessEnv E) {s : St} (hs : Session E s) (hl : s.v.locked = []) {scope : Scope} {t : St}
    (h : Calm E s scope t) (k : Key) (o : Entries) (r : Res (Option Value)) : Gives E t k o r ↔ Answer E scope k o r := by
  obtain ⟨ht, u, hu, hv⟩ := h
  rw [← hu.gives he hs hl, gives_iff, gives_iff]
  have : ∀ n, ((eval E n).lookup k o t).map Prod.fst = ((eval E n).lookup k o u).map Prod.fst := by
    intro n
    rcases ((NI.eval E n).lookup k o t u hv ht hu.tree).elim with ⟨h1, h2⟩ | ⟨a, x, y, h1, h2, _⟩ | ⟨e, x, y, h1, h2, _⟩ <;> rw [h1, h2] <;> rfl
  simp only [this]

theorem Calm.step {E : Env} (he : StatelessEnv E) {s : St} (hs : Session E s) (hl : s.v.locked = []) {scope : Scope} {t t' : St}
    (h : Calm E s scope t) {n : Nat} {k : Key} {o : Entries} {v : Option Value} (hn : (eval E n).lookup k o t = some (.ok v, t')) :
    Calm E s scope t' := by
  have ha := (h.gives he hs hl k o (.ok v)).1 ⟨n, t', hn⟩
  obtain ⟨ht, u, hu, hv⟩ := h
  rcases ((NI.eval E n).lookup k o t u hv ht hu.tree).elim with ⟨h1, h2⟩ | ⟨a, x, y, h1, h2, h3, h4, h5⟩ | ⟨e, x, y, h1, h2, _⟩
  · rw [hn] at h1; cases h1
  · rw [hn] at h1
    cases h1
    refine ⟨h4.2.right, y, ⟨.lookup n k o hu.history h2, h5.2.right, ?_⟩, h3⟩
    by_cases hk : k.root = "lookup_options".toList
    · cases n with
      | zero => cases h2
      | succ n => rw [lookup_hidden E hk o hu.on] at h2; cases h2; exact hu.fresh
    · exact .inr ⟨k, o, v, hk, ha⟩
  · rw [hn] at h1; cases h1

/-- A name that is looked up. -/
theorem Calm.name {E : Env} (he : StatelessEnv E) {s : St} (hs : Session E s) (hl : s.v.locked = []) {scope : Scope} {t : St}
    (h : Calm E s scope t) (opts : Entries) (name : Str) (r : Res (Option Value)) :
    (∃ n u, lookupName (eval E n) opts name t = some (r, u)) ↔ NameAnswer E scope opts name r := by
  unfold lookupName
  cases hk : newKey name with
  | panic e =>
    have : ∀ n, (lift (.panic e : Res Key) >>= fun k => (eval E n).lookup k opts) t = some (.panic e, t) := fun n => rfl
    constructor
    · rintro ⟨n, u, hn⟩
      rw [this n] at hn
      cases hn
      exact .bad hk
    · intro ha
      cases ha with
      | key hk' _ => rw [hk] at hk'; cases hk'
      | bad hk' => rw [hk] at hk'; cases hk'; exact ⟨0, t, this 0⟩
  | ok k =>
    have : ∀ n, (lift (.ok k : Res Key) >>= fun k => (eval E n).lookup k opts) t = (eval E n).lookup k opts t := fun n => rfl
    constructor
    · rintro ⟨n, u, hn⟩
      rw [this n] at hn
      exact .key hk ((h.gives he hs hl k opts r).1 ⟨n, u, hn⟩)
    · intro ha
      cases ha with
      | key hk' ha =>
        rw [hk] at hk'
        cases hk'
        obtain ⟨n, u, hn⟩ := (h.gives he hs hl k opts r).2 ha
        exact ⟨n, u, (this n).trans hn⟩
      | bad hk' => rw [hk] at hk'; cases hk'

theorem Calm.name_step {E : Env} (he : StatelessEnv E) {s : St} (hs : Session E s) (hl : s.v.locked = []) {scope : Scope} {t u : St}
    (h : Calm E s scope t) {n : Nat} {opts : Entries} {name : Str} {v : Option Value}
    (hn : lookupName (eval E n) opts name t = some (.ok v, u)) : Calm E s scope u := by
  unfold lookupName at hn
  cases hk : newKey name with
  | panic e => rw [hk] at hn; cases hn
  | ok k => rw [hk] at hn; exact h.step he hs hl hn

theorem lookupName_le (E : Env) {n m : Nat} (h : n ≤ m) {opts : Entries} {name : Str} {t : St} {r : Res (Option Value) × St}
    (hn : lookupName (eval E n) opts name t = some r) : lookupName (eval E m) opts name t = some r := by
  unfold lookupName at hn ⊢
  cases hk : newKey name with
  | panic e => rw [hk] at hn; exact hn
  | ok k => rw [hk] at hn; exact (eval_le E h).lookup k opts t r hn

theorem lookupNames_le (E : Env) {n m : Nat} (h : n ≤ m) {opts : Entries} (names : List Str) : ∀ {t : St} {r : Res (Option Value) × St},
    lookupNames (eval E n) opts names t = some r → lookupNames (eval E m) opts names t = some r := by
  induction names with
  | nil => exact fun h => h
  | cons name names ih =>
    intro t r hn
    unfold lookupNames at hn ⊢
    cases ha : lookupName (eval E n) opts name t with
    | none => rw [bind_none ha] at hn; cases hn
    | some q =>
      obtain ⟨x, u⟩ := q
      have hb := lookupName_le E h ha
      cases x with
      | panic e => rw [bind_panic ha] at hn; rw [bind_panic hb]; exact hn
      | ok v =>
        rw [bind_ok ha] at hn
        rw [bind_ok hb]
        cases v with
        | some v => exact hn
        | none => exact ih hn

theorem names_first {E : Env} (he : StatelessEnv E) {s : St} (hs : Session E s) (hl : s.v.locked = []) {scope : Scope} (opts : Entries)
    (names : List Str) : ∀ {t : St}, Calm E s scope t → ∀ r,
    (∃ n u, lookupNames (eval E n) opts names t = some (r, u)) ↔ FirstOf (NameAnswer E scope opts) names r := by
  induction names with
  | nil =>
    intro t _ r
    constructor
    · rintro ⟨n, u, h⟩; cases h; exact .none
    · intro h; cases h; exact ⟨0, t, rfl⟩
  | cons name names ih =>
    intro t ht r
    constructor
    · rintro ⟨n, u, h⟩
      unfold lookupNames at h
      cases ha : lookupName (eval E n) opts name t with
      | none => rw [bind_none ha] at h; cases h
      | some q =>
        obtain ⟨x, w⟩ := q
        have hx := (ht.name he hs hl opts name x).1 ⟨n, w, ha⟩
        cases x with
        | panic e => rw [bind_panic ha] at h; cases h; exact .fails hx
        | ok v =>
          rw [bind_ok ha] at h
          cases v with
          | some v => cases h; exact .found hx
          | none => exact .next hx ((ih (ht.name_step he hs hl ha) r).1 ⟨n, u, h⟩)
    · intro h
      have one : ∀ r, NameAnswer E scope opts name r → ∃ n u, lookupName (eval E n) opts name t = some (r, u) :=
        fun r => (ht.name he hs hl opts name r).2
      unfold lookupNames
      cases h with
      | found ha => obtain ⟨n, u, hn⟩ := one _ ha; exact ⟨n, u, by rw [bind_ok hn]; rfl⟩
      | fails ha => obtain ⟨n, u, hn⟩ := one _ ha; exact ⟨n, u, by rw [bind_panic hn]⟩
      | next ha h =>
        obtain ⟨n, u, hn⟩ := one _ ha
        obtain ⟨m, w, hm⟩ := (ih (ht.name_step he hs hl hn) r).2 h
        refine ⟨max n m, w, ?_⟩
        rw [bind_ok (lookupName_le E (Nat.le_max_left n m) hn)]
        exact lookupNames_le E (Nat.le_max_right n m) names hm

/-! ### `Lookup2` and `LookupAll` without overrides and defaults -/

theorem lookup2_plain (T : Types) (rec : Rec) (names : List Str) (tp : Option Nat) (dv : Option Value) (opts : Entries) (t : St) :
    lookup2 T rec names tp dv none none opts none t = match lookupNames rec opts names t with
      | none => none
      | some (.panic e, u) => some (.panic e, u)
      | some (.ok (some v), u) => some (deliver T tp (.ok (some v)), u)
      | some (.ok none, u) => some (deliver T tp (.ok dv), u) := by
  have e : lookup2 T rec names tp dv none none opts none = (lookupNames rec opts names >>= fun x => match x with
    | some v => typed T tp v
    | none => match dv with
      | some v => typed T tp v
      | none => pure none) := by
    unfold lookup2 lookupInMap
    rfl
  rw [e]
  cases h : lookupNames rec opts names t with
  | none => rw [bind_none h]
  | some q =>
    obtain ⟨x, u⟩ := q
    cases x with
    | panic e => rw [bind_panic h]
    | ok v =>
      rw [bind_ok h]
      cases v with
      | some v => exact typed_deliver T tp v u
      | none =>
        cases dv with
        | some v => exact typed_deliver T tp v u
        | none => rfl

theorem memberTyped_iff (T : Types) (tm : Option (Str → Option Nat)) (n : Str) (v : Value) (r : Res Value) :
    ensureTypeFromMap T tm n v = r ↔ MemberTyped T.isInstance (fun t v => T.env.newValue t v none) n v tm r := by
  cases tm with
  | none =>
    constructor
    · intro h; cases h; exact .any
    · intro h; cases h; rfl
  | some f =>
    show (match f n with | some e => ensureType T (some e) v | none => .panic (.notInTypeMap n)) = r ↔ _
    cases hf : f n with
    | none =>
      constructor
      · intro h; cases h; exact .other hf
      · intro h
        cases h with
        | member h1 _ => rw [hf] at h1; cases h1
        | other _ => rfl
    | some t =>
      dsimp only
      rw [ensureType_iff]
      constructor
      · exact fun h => .member hf h
      · intro h
        cases h with
        | member h1 h2 => rw [hf] at h1; cases h1; exact h2
        | other h1 => rw [hf] at h1; cases h1

theorem lookupForAll_plain (rec : Rec) (opts : Entries) (n : Str) : lookupForAll rec none none opts n = lookupName rec opts n := by
  funext t
  have : lookupForAll rec none none opts n = (lookupName rec opts n >>= fun x => match x with
    | some v => pure (some v)
    | none => pure none) := rfl
  rw [this]
  cases h : lookupName rec opts n t with
  | none => rw [bind_none h]
  | some q =>
    obtain ⟨x, u⟩ := q
    cases x with
    | panic e => rw [bind_panic h]
    | ok v => rw [bind_ok h]; cases v <;> rfl

theorem lookupAllLoop_le (E : Env) (T : Types) {n m : Nat} (h : n ≤ m) {opts : Entries} (tm : Option (Str → Option Nat)) (names : List Str) :
    ∀ {es : Entries} {t : St} {r : Res Entries × St}, lookupAllLoop T (eval E n) tm none none opts names es t = some r →
    lookupAllLoop T (eval E m) tm none none opts names es t = some r := by
  induction names with
  | nil => exact fun h => h
  | cons name names ih =>
    intro es t r hn
    unfold lookupAllLoop at hn ⊢
    rw [lookupForAll_plain] at hn ⊢
    cases ha : lookupName (eval E n) opts name t with
    | none => rw [bind_none ha] at hn; cases hn
    | some q =>
      obtain ⟨x, u⟩ := q
      have hb := lookupName_le E h ha
      cases x with
      | panic e => rw [bind_panic ha] at hn; rw [bind_panic hb]; exact hn
      | ok v =>
        rw [bind_ok ha] at hn
        rw [bind_ok hb]
        cases v with
        | none => exact ih hn
        | some v =>
          dsimp only at hn ⊢
          cases hw : ensureTypeFromMap T tm name v with
          | panic e => rw [hw] at hn; exact hn
          | ok w => rw [hw] at hn; exact ih hn

theorem lookupAll_plain (T : Types) (rec : Rec) (names : List Str) (tm : Option (Str → Option Nat)) (opts : Entries) (t : St) :
    (lookupAll T rec names tm none none opts >>= fun v => (pure (some v) : M (Option Value))) t =
      match lookupAllLoop T rec tm none none opts names [] t with
      | none => none
      | some (.ok es, u) => some (.ok (some (.map es)), u)
      | some (.panic e, u) => some (.panic e, u) := by
  have e : lookupAll T rec names tm none none opts = lookupAllLoop T rec tm none none opts names [] >>= fun r => (pure (.map r) : M Value) := rfl
  rw [e]
  cases hx : lookupAllLoop T rec tm none none opts names [] t with
  | none => rw [bind_none (bind_none hx)]
  | some q =>
    obtain ⟨x, u⟩ := q
    cases x with
    | panic e => rw [bind_panic (bind_panic hx)]
    | ok es =>
      have : (lookupAllLoop T rec tm none none opts names [] >>= fun r => (pure (.map r) : M Value)) t = some (.ok (.map es), u) := by
        rw [bind_ok hx]; rfl
      rw [bind_ok this]
      rfl

/-- With what `LookupAll` has put into the hash before. -/
def Spec.afterAll (es : Entries) : Res Entries → Res Entries
  | .ok more => .ok (Entries.putAll es more)
  | .panic e => .panic e

theorem names_all {T : Types} (he : StatelessEnv T.env) {s : St} (hs : Session T.env s) (hl : s.v.locked = []) {scope : Scope} (opts : Entries)
    (tm : Option (Str → Option Nat)) (names : List Str) : ∀ {t : St}, Calm T.env s scope t → ∀ es r,
    (∃ n u, lookupAllLoop T (eval T.env n) tm none none opts names es t = some (r, u)) ↔
      ∃ r', AllOf (NameAnswer T.env scope opts) (fun n v => MemberTyped T.isInstance (fun t v => T.env.newValue t v none) n v tm) names r' ∧
        r = afterAll es r' := by
  induction names with
  | nil =>
    intro t _ es r
    constructor
    · rintro ⟨n, u, h⟩; cases h; exact ⟨_, .nil, rfl⟩
    · rintro ⟨r', h, rfl⟩; cases h; exact ⟨0, t, rfl⟩
  | cons name names ih =>
    intro t ht es r
    constructor
    · rintro ⟨n, u, h⟩
      unfold lookupAllLoop at h
      rw [lookupForAll_plain] at h
      cases ha : lookupName (eval T.env n) opts name t with
      | none => rw [bind_none ha] at h; cases h
      | some q =>
        obtain ⟨x, w⟩ := q
        have hx := (ht.name he hs hl opts name x).1 ⟨n, w, ha⟩
        cases x with
        | panic e => rw [bind_panic ha] at h; cases h; exact ⟨_, .fails hx, rfl⟩
        | ok v =>
          rw [bind_ok ha] at h
          have hw := ht.name_step he hs hl ha
          cases v with
          | none =>
            obtain ⟨r', h1, h2⟩ := (ih hw es r).1 ⟨n, u, h⟩
            exact ⟨r', .missing hx h1, h2⟩
          | some v =>
            dsimp only at h
            cases hy : ensureTypeFromMap T tm name v with
            | panic e => rw [hy] at h; cases h; exact ⟨_, .untyped hx ((memberTyped_iff T tm name v _).1 hy), rfl⟩
            | ok y =>
              rw [hy] at h
              obtain ⟨r', h1, h2⟩ := (ih hw _ r).1 ⟨n, u, h⟩
              have ty := (memberTyped_iff T tm name v _).1 hy
              cases r' with
              | ok more => exact ⟨_, .found hx ty h1, h2⟩
              | panic e => exact ⟨_, .later hx ty h1, h2⟩
    · rintro ⟨r', h, rfl⟩
      have one : ∀ r, NameAnswer T.env scope opts name r → ∃ n u, lookupName (eval T.env n) opts name t = some (r, u) :=
        fun r => (ht.name he hs hl opts name r).2
      unfold lookupAllLoop
      simp only [lookupForAll_plain]
      cases h with
      | fails ha => obtain ⟨n, u, hn⟩ := one _ ha; exact ⟨n, u, by rw [bind_panic hn]; rfl⟩
      | missing ha h =>
        obtain ⟨n, u, hn⟩ := one _ ha
        obtain ⟨m, w, hm⟩ := (ih (ht.name_step he hs hl hn) es _).2 ⟨_, h, rfl⟩
        refine ⟨max n m, w, ?_⟩
        rw [bind_ok (lookupName_le T.env (Nat.le_max_left n m) hn)]
        exact lookupAllLoop_le T.env T (Nat.le_max_right n m) tm names hm
      | untyped ha ty =>
        obtain ⟨n, u, hn⟩ := one _ ha
        refine ⟨n, u, ?_⟩
        rw [bind_ok hn]
        dsimp only
        rw [(memberTyped_iff T tm name _ _).2 ty]
        rfl
      | @found _ _ v y more ha ty h =>
        obtain ⟨n, u, hn⟩ := one _ ha
        obtain ⟨m, w, hm⟩ := (ih (ht.name_step he hs hl hn) (Entries.put es (.str name) y) _).2 ⟨_, h, rfl⟩
        refine ⟨max n m, w, ?_⟩
        rw [bind_ok (lookupName_le T.env (Nat.le_max_left n m) hn)]
        dsimp only
        rw [(memberTyped_iff T tm name _ _).2 ty]
        exact lookupAllLoop_le T.env T (Nat.le_max_right n m) tm names hm
      | @later _ _ v y e ha ty h =>
        obtain ⟨n, u, hn⟩ := one _ ha
        obtain ⟨m, w, hm⟩ := (ih (ht.name_step he hs hl hn) (Entries.put es (.str name) y) _).2 ⟨_, h, rfl⟩
        refine ⟨max n m, w, ?_⟩
        rw [bind_ok (lookupName_le T.env (Nat.le_max_left n m) hn)]
        dsimp only
        rw [(memberTyped_iff T tm name _ _).2 ty]
        exact lookupAllLoop_le T.env T (Nat.le_max_right n m) tm names hm

/-! ### The flags -/

theorem mergeAsked_iff (m : Str) (opts : Entries) : MergeAsked m opts ↔ mergeOptions m = opts := by
  unfold mergeOptions
  constructor
  · intro h
    cases h with
    | no => rfl
    | first => rfl
    | strategy h1 h2 => rw [if_neg (not_or.2 ⟨h1, h2⟩)]
  · intro h
    split at h
    · rename_i h1
      subst h
      rcases h1 with rfl | rfl
      · exact .no
      · exact .first
    · rename_i h1
      subst h
      exact .strategy (fun h => h1 (.inl h)) (fun h => h1 (.inr h))

/-- C83, the default value: it is the one that the flag says; no flag is something else than an empty one; and it is an error only if
its text must be parsed and cannot be. -/
theorem C83_default (C : CliEnv) (d : Option Str) : match defaultOf C d with
    | .ok dv => DefaultGiven C d dv
    | .panic e => ∃ s t c, d = some s ∧ Trimmed s t ∧ t.head? = some c ∧ c ∈ ['{', '[', '"', '\''] ∧ C.parseValue t = .panic e := by
  cases d with
  | none => exact .no
  | some s =>
    unfold defaultOf
    dsimp only
    by_cases h : s = []
    · subst h; exact .empty
    · rw [if_neg h]
      cases hp : parseCommandLineValue C s with
      | ok v => exact .value h (parseCommandLineValue_of C s v hp)
      | panic e =>
        dsimp only [Res.bind]
        unfold parseCommandLineValue at hp
        have ht := trimSpace_trimmed s
        simp only at hp
        generalize trimSpace s = t at *
        cases t with
        | nil => cases hp
        | cons c t =>
          simp only at hp
          split at hp
          · rename_i hc
            exact ⟨s, c :: t, c, rfl, ht, rfl, by simpa [needParse] using hc, hp⟩
          · cases hp

/-- C83, the explainer: what is explained is what the flags say. -/
theorem C83_explainer (o : CommandOptions) : ExplainerFor o (explainerOf o) := by
  unfold explainerOf
  cases h1 : o.explainData <;> cases h2 : o.explainOptions
  · exact .none h1 h2
  · exact .options h1 h2
  · exact .data h1 h2
  · exact .both h1 h2

/-- C83, the renderings: what is written in the rendering of a name. -/
theorem C83_rendering (R : RenderEnv) (name : Str) (x : Rendered) (r : Res Str) : renderTo R name x = r ↔ Written R x name r := by
  have nil : x.isNil = true ↔ x = .value .null := by
    unfold Rendered.isNil
    split
    · simp
    · rename_i h; simp only [Bool.false_eq_true, false_iff]; exact h
  have forth : Written R x name (renderTo R name x) := by
    unfold renderTo
    split
    · rename_i h
      subst h
      split
      · rename_i h; exact .jsonNil (nil.1 h)
      · rename_i h
        cases hj : R.json x with
        | ok t => exact .json (fun e => h (nil.2 e)) hj
        | panic e => exact .jsonFails (fun e => h (nil.2 e)) hj
    · rename_i h1
      split
      · rename_i h
        subst h
        split
        · rename_i h; exact .yamlNil (nil.1 h)
        · rename_i h; exact .yaml (fun e => h (nil.2 e)) rfl
      · rename_i h2
        split
        · rename_i h; subst h; exact .binary rfl
        · rename_i h3
          split
          · rename_i h; subst h; exact .text
          · rename_i h4; exact .unknown (by simp only [List.mem_cons, List.not_mem_nil, or_false, not_or]; exact ⟨h1, h2, h3, h4⟩)
  constructor
  · rintro rfl; exact forth
  · intro h
    have back : ∀ n q, Written R x n q → renderTo R n x = q := by
      intro n q h
      unfold renderTo
      have names : "yaml".toList ≠ "json".toList ∧ "binary".toList ≠ "json".toList ∧ "s".toList ≠ "json".toList ∧
        "binary".toList ≠ "yaml".toList ∧ "s".toList ≠ "yaml".toList ∧ "s".toList ≠ "binary".toList := by decide
      cases h with
      | jsonNil h => rw [if_pos rfl, if_pos (nil.2 h)]
      | json h h1 => rw [if_pos rfl, if_neg (fun e => h (nil.1 e)), h1]; rfl
      | jsonFails h h1 => rw [if_pos rfl, if_neg (fun e => h (nil.1 e)), h1]; rfl
      | yamlNil h => rw [if_neg names.1, if_pos rfl, if_pos (nil.2 h)]; rfl
      | yaml h h1 => rw [if_neg names.1, if_pos rfl, if_neg (fun e => h (nil.1 e)), h1]
      | binary h => rw [if_neg names.2.1, if_neg names.2.2.2.1, if_pos rfl, h]
      | text => rw [if_neg names.2.2.1, if_neg names.2.2.2.2.1, if_neg names.2.2.2.2.2, if_pos rfl]; rfl
      | unknown h =>
        simp only [List.mem_cons, List.not_mem_nil, or_false, not_or] at h
        rw [if_neg h.1, if_neg h.2.1, if_neg h.2.2.1, if_neg h.2.2.2]
    exact back name r h

/-- C83, the type: it is the one that the flag says. -/
theorem C83_type (E : Env) (t : Str) (r : Res (Option Nat)) : typeOf E t = r ↔ TypeGiven E t r := by
  unfold typeOf
  constructor
  · rintro rfl
    split
    · rename_i h; subst h; exact .no
    · rename_i h
      cases hp : E.parseType t with
      | ok n => exact .type h hp
      | panic e => exact .fails h hp
  · intro h
    cases h with
    | no => rfl
    | type h1 h2 => rw [if_neg h1, h2]; rfl
    | fails h1 h2 => rw [if_neg h1, h2]; rfl

/-! ### C83 -/

theorem finds_iff {A : Cli} (he : StatelessEnv A.types.env) {s : St} (hs : Session A.types.env s) (hl : s.v.locked = []) (scope : Scope)
    (o : CommandOptions) (tp : Option Nat) (dv : Option Value) (args : List Str) (ex : Option ExplOpts) (r : Res (Option Value)) :
    (∃ n u, lookupFor A (eval A.types.env n) o tp dv args (nextInvocation s scope ex) = some (r, u)) ↔ Finds A o scope tp dv args r := by
  have hc := Calm.start A.types.env s scope ex
  have all : ∀ tm : Option (Str → Option Nat),
      (∃ n u, (lookupAll A.types (eval A.types.env n) args tm none none (mergeOptions o.merge) >>= fun v => pure (some v))
        (nextInvocation s scope ex) = some (r, u)) ↔
      ∃ r', AllOf (NameAnswer A.types.env scope (mergeOptions o.merge))
        (fun n v => MemberTyped A.types.isInstance (fun t v => A.types.env.newValue t v none) n v tm) args r' ∧
        r = (match r' with | .ok es => .ok (some (.map (Entries.putAll [] es))) | .panic e => .panic e) := by
    intro tm
    have h := names_all he hs hl (mergeOptions o.merge) tm args hc []
    have e := fun n => lookupAll_plain A.types (eval A.types.env n) args tm (mergeOptions o.merge) (nextInvocation s scope ex)
    constructor
    · rintro ⟨n, u, hn⟩
      rw [e] at hn
      cases hx : lookupAllLoop A.types (eval A.types.env n) tm none none (mergeOptions o.merge) args [] (nextInvocation s scope ex) with
      | none => rw [hx] at hn; cases hn
      | some q =>
        obtain ⟨x, w⟩ := q
        obtain ⟨r', h1, rfl⟩ := (h x).1 ⟨n, w, hx⟩
        refine ⟨r', h1, ?_⟩
        cases r' with
        | ok es => rw [hx] at hn; cases hn; rfl
        | panic e => rw [hx] at hn; cases hn; rfl
    · rintro ⟨r', h1, rfl⟩
      obtain ⟨n, u, hn⟩ := (h _).2 ⟨r', h1, rfl⟩
      refine ⟨n, u, ?_⟩
      rw [e, hn]
      cases r' <;> rfl
  cases ha : o.lookupAll with
  | false =>
    have h := names_first he hs hl (mergeOptions o.merge) args hc
    simp only [C62_lookup A _ o tp dv args ha, lookup2_plain]
    constructor
    · rintro ⟨n, u, hn⟩
      cases hx : lookupNames (eval A.types.env n) (mergeOptions o.merge) args (nextInvocation s scope ex) with
      | none => rw [hx] at hn; cases hn
      | some q =>
        obtain ⟨x, w⟩ := q
        have hf := (h x).1 ⟨n, w, hx⟩
        rw [hx] at hn
        rcases x with (_ | v) | e
        · cases hn
          exact .first ha ((mergeAsked_iff _ _).2 rfl) hf .default ((deliver_iff _ _ _ _).1 rfl)
        · cases hn
          exact .first ha ((mergeAsked_iff _ _).2 rfl) hf .found ((deliver_iff _ _ _ _).1 rfl)
        · cases hn
          exact .first ha ((mergeAsked_iff _ _).2 rfl) hf .fails .panic
    · intro hf
      cases hf with
      | @first opts r r' _ _ hm hf hd hv =>
        rw [← (mergeAsked_iff _ _).1 hm] at hf
        obtain ⟨n, u, hn⟩ := (h r).2 hf
        refine ⟨n, u, ?_⟩
        rw [hn]
        have hv := (deliver_iff _ _ _ _).2 hv
        cases hd with
        | fails => dsimp only; rw [← hv]; rfl
        | found => dsimp only; rw [← hv]
        | default => dsimp only; rw [← hv]
      | all h' | struct h' | notStruct h' => rw [ha] at h'; cases h'
  | true =>
    unfold lookupFor
    simp only [ha, if_true]
    cases tp with
    | none =>
      dsimp only
      rw [all none]
      constructor
      · rintro ⟨r', h1, rfl⟩
        exact .all ha rfl ((mergeAsked_iff _ _).2 rfl) h1
      · intro hf
        cases hf with
        | first h' => rw [ha] at h'; cases h'
        | all _ _ hm h1 => rw [← (mergeAsked_iff _ _).1 hm] at h1; exact ⟨_, h1, rfl⟩
        | struct _ h' => cases h'
        | notStruct _ h' => cases h'
    | some t =>
      dsimp only
      cases ht : A.members t with
      | none =>
        dsimp only
        constructor
        · rintro ⟨n, u, hn⟩; cases hn; exact .notStruct ha rfl ht
        · intro hf
          cases hf with
          | first h' => rw [ha] at h'; cases h'
          | all _ h' => cases h'
          | struct _ h' h'' => cases h'; rw [ht] at h''; cases h''
          | notStruct => exact ⟨0, _, rfl⟩
      | some f =>
        dsimp only
        rw [all (some f)]
        constructor
        · rintro ⟨r', h1, rfl⟩
          exact .struct ha rfl ht ((mergeAsked_iff _ _).2 rfl) h1
        · intro hf
          cases hf with
          | first h' => rw [ha] at h'; cases h'
          | all _ h' => cases h'
          | struct _ h' h'' hm h1 =>
            cases h'
            rw [ht] at h''
            cases h''
            rw [← (mergeAsked_iff _ _).1 hm] at h1
            exact ⟨_, h1, rfl⟩
          | notStruct _ h' h'' => cases h'; rw [ht] at h''; cases h''

theorem lookupFor_le (A : Cli) {n m : Nat} (h : n ≤ m) {o : CommandOptions} {tp : Option Nat} {dv : Option Value} {args : List Str} {t : St}
    {r : Res (Option Value) × St} (hn : lookupFor A (eval A.types.env n) o tp dv args t = some r) :
    lookupFor A (eval A.types.env m) o tp dv args t = some r := by
  have all : ∀ tm, (lookupAll A.types (eval A.types.env n) args tm none none (mergeOptions o.merge) >>= fun v => pure (some v)) t = some r →
      (lookupAll A.types (eval A.types.env m) args tm none none (mergeOptions o.merge) >>= fun v => pure (some v)) t = some r := by
    intro tm hn
    rw [lookupAll_plain] at hn ⊢
    cases hx : lookupAllLoop A.types (eval A.types.env n) tm none none (mergeOptions o.merge) args [] t with
    | none => rw [hx] at hn; cases hn
    | some q => rw [hx] at hn; rw [lookupAllLoop_le A.types.env A.types h tm args hx]; exact hn
  cases ha : o.lookupAll with
  | true =>
    unfold lookupFor at hn ⊢
    simp only [ha, if_true] at hn ⊢
    cases tp with
    | none => exact all none hn
    | some t =>
      dsimp only at hn ⊢
      cases hm : A.members t with
      | none => rw [hm] at hn; exact hn
      | some f => rw [hm] at hn; exact all (some f) hn
  | false =>
    rw [C62_lookup A _ o tp dv args ha, lookup2_plain] at hn ⊢
    cases hx : lookupNames (eval A.types.env n) (mergeOptions o.merge) args t with
    | none => rw [hx] at hn; cases hn
    | some q => rw [hx] at hn; rw [lookupNames_le A.types.env h args hx]; exact hn

/-! ### Sessions -/

/-- In a session whose configuration can be read nothing is ever locked. -/
theorem session_locks {E : Env} (he : StatelessEnv E) (hc : Readable E) {s : St} (hs : Session E s) : s.v.locked = [] := by
  induction hs with
  | start => rfl
  | invocation _ _ _ ih => exact ih
  | among _ _ ih => exact ih
  | lookup n k o _ h ih => rw [lookup_locks he.tame hc h]; exact ih

/-- C81 for any session whose configuration can be read. -/
theorem C81_session (E : Env) (he : StatelessEnv E) (hc : Readable E) {s : St} (hs : Session E s) (scope : Scope)
    (ex : Option ExplOpts) (k : Key) (o : Entries) (r : Res (Option Value)) :
    Gives E (nextInvocation s scope ex) k o r ↔ Answer E scope k o r :=
  C81_answer E he hs (session_locks he hc hs) scope ex k o r

theorem lookupName_session {E : Env} {t u : St} (h : Session E t) {n : Nat} {opts : Entries} {name : Str} {r : Res (Option Value)}
    (hn : lookupName (eval E n) opts name t = some (r, u)) : Session E u := by
  unfold lookupName at hn
  cases hk : newKey name with
  | panic e => rw [hk] at hn; cases hn; exact h
  | ok k => rw [hk] at hn; exact .lookup n k opts h hn

theorem lookupNames_session {E : Env} {n : Nat} {opts : Entries} (names : List Str) : ∀ {t u : St} {r : Res (Option Value)}, Session E t →
    lookupNames (eval E n) opts names t = some (r, u) → Session E u := by
  induction names with
  | nil => intro t u r h hn; cases hn; exact h
  | cons name names ih =>
    intro t u r h hn
    unfold lookupNames at hn
    cases ha : lookupName (eval E n) opts name t with
    | none => rw [bind_none ha] at hn; cases hn
    | some q =>
      obtain ⟨x, w⟩ := q
      have hw := lookupName_session h ha
      cases x with
      | panic e => rw [bind_panic ha] at hn; cases hn; exact hw
      | ok v =>
        rw [bind_ok ha] at hn
        cases v with
        | some v => cases hn; exact hw
        | none => exact ih hw hn

theorem lookupAllLoop_session {T : Types} {n : Nat} {opts : Entries} (tm : Option (Str → Option Nat)) (names : List Str) :
    ∀ {es : Entries} {t u : St} {r : Res Entries}, Session T.env t →
    lookupAllLoop T (eval T.env n) tm none none opts names es t = some (r, u) → Session T.env u := by
  induction names with
  | nil => intro es t u r h hn; cases hn; exact h
  | cons name names ih =>
    intro es t u r h hn
    unfold lookupAllLoop at hn
    rw [lookupForAll_plain] at hn
    cases ha : lookupName (eval T.env n) opts name t with
    | none => rw [bind_none ha] at hn; cases hn
    | some q =>
      obtain ⟨x, w⟩ := q
      have hw := lookupName_session h ha
      cases x with
      | panic e => rw [bind_panic ha] at hn; cases hn; exact hw
      | ok v =>
        rw [bind_ok ha] at hn
        cases v with
        | none => exact ih hw hn
        | some v =>
          dsimp only at hn
          cases hy : ensureTypeFromMap T tm name v with
          | panic e => rw [hy] at hn; cases hn; exact hw
          | ok y => rw [hy] at hn; exact ih hw hn

theorem lookupFor_session {A : Cli} {n : Nat} {o : CommandOptions} {tp : Option Nat} {dv : Option Value} {args : List Str} {t u : St}
    {r : Res (Option Value)} (h : Session A.types.env t) (hn : lookupFor A (eval A.types.env n) o tp dv args t = some (r, u)) :
    Session A.types.env u := by
  have all : ∀ tm, (lookupAll A.types (eval A.types.env n) args tm none none (mergeOptions o.merge) >>= fun v => pure (some v)) t = some (r, u) →
      Session A.types.env u := by
    intro tm hn
    rw [lookupAll_plain] at hn
    cases hx : lookupAllLoop A.types (eval A.types.env n) tm none none (mergeOptions o.merge) args [] t with
    | none => rw [hx] at hn; cases hn
    | some q =>
      have := lookupAllLoop_session tm args h (r := q.1) (u := q.2) hx
      rw [hx] at hn
      obtain ⟨x | e, w⟩ := q <;> cases hn <;> exact this
  cases ha : o.lookupAll with
  | true =>
    unfold lookupFor at hn
    simp only [ha, if_true] at hn
    cases tp with
    | none => exact all none hn
    | some t =>
      dsimp only at hn
      cases hm : A.members t with
      | none => rw [hm] at hn; cases hn; exact h
      | some f => rw [hm] at hn; exact all (some f) hn
  | false =>
    rw [C62_lookup A _ o tp dv args ha, lookup2_plain] at hn
    cases hx : lookupNames (eval A.types.env n) (mergeOptions o.merge) args t with
    | none => rw [hx] at hn; cases hn
    | some q =>
      have := lookupNames_session args h (r := q.1) (u := q.2) hx
      rw [hx] at hn
      obtain ⟨(_ | v) | e, w⟩ := q <;> cases hn <;> exact this

theorem lookupAndRender_session {A : Cli} {n : Nat} {o : CommandOptions} {args : List Str} {s : St} {w : View} {out : Res (Bool × Str)}
    (hs : Session A.types.env s) (hn : lookupAndRender A (eval A.types.env n) o args s.v = some (out, w)) :
    ∃ u, Session A.types.env u ∧ u.v = w := by
  unfold lookupAndRender at hn
  split at hn
  · cases hn; exact ⟨s, hs, rfl⟩
  · rename_i tp dv vars _
    have e : nextInvocation { v := s.v } (invocationScope A.scope (some vars)) (explainerOf o) =
        nextInvocation s (invocationScope A.scope (some vars)) (explainerOf o) := rfl
    rw [e] at hn
    split at hn
    · cases hn
    · rename_i u hf
      cases hn
      exact ⟨u, lookupFor_session (.invocation _ _ hs) hf, rfl⟩
    · rename_i u hf
      cases hn
      exact ⟨u, lookupFor_session (.invocation _ _ hs) hf, rfl⟩

theorem renders_iff (b : Bool) (x : Res Str) (out : Res (Bool × Str)) : Renders b x out ↔ x.bind (fun s => .ok (b, s)) = out := by
  constructor
  · intro h; cases h <;> rfl
  · intro h
    subst h
    cases x
    · exact .ok
    · exact .fails

theorem renderingOf_eq (o : CommandOptions) (d : String) : renderingOf o d = if o.renderAs = [] then d.toList else o.renderAs := by
  unfold renderingOf
  cases h : o.renderAs with
  | nil => rfl
  | cons c cs => rfl

/-- What the command line prints in a session in which no configuration is locked. -/
theorem prints_unlocked (A : Cli) (he : StatelessEnv A.types.env) {s : St} (hs : Session A.types.env s) (hl : s.v.locked = [])
    (o : CommandOptions) (args : List Str) (hx : ¬Explains o) {tp : Option Nat} {dv : Option Value} {vars : Entries}
    (hp : Prepared A o tp dv vars) (out : Res (Bool × Str)) :
    (∃ n w, lookupAndRender A (eval A.types.env n) o args s.v = some (out, w)) ↔
      ∃ r, Finds A o (.nested A.scope (.map vars)) tp dv args r ∧ Prints A o r out := by
  have hx' : explainerOf o = none := by
    unfold explainerOf
    rw [if_neg (by simpa [Explains] using hx)]
  have key := finds_iff he hs hl (.nested A.scope (.map vars)) o tp dv args none
  have e : nextInvocation { v := s.v } (invocationScope A.scope (some vars)) none = nextInvocation s (.nested A.scope (.map vars)) none := rfl
  unfold lookupAndRender
  rw [hp.type, hp.default, hp.scope]
  simp only [bind, Res.bind, pure]
  rw [hx', e]
  have render : ∀ v t, renderFor A o (some v) t = (renderTo A.render (renderingOf o "yaml") (.value v)).bind (fun s => .ok (true, s)) := by
    intro v t
    unfold renderFor
    rw [hx', renderingOf_eq]
    rfl
  have nothing : ∀ t, renderFor A o none t = .ok (false, []) := by
    intro t
    unfold renderFor
    rw [hx']
    rfl
  constructor
  · rintro ⟨n, w, hn⟩
    cases hf : lookupFor A (eval A.types.env n) o tp dv args (nextInvocation s (.nested A.scope (.map vars)) none) with
    | none => rw [hf] at hn; cases hn
    | some q =>
      obtain ⟨x, u⟩ := q
      rw [hf] at hn
      refine ⟨x, (key x).1 ⟨n, u, hf⟩, ?_⟩
      rcases x with (_ | v) | e
      · cases hn
        rw [nothing]
        exact .nothing
      · cases hn
        rw [render]
        exact .value ((renders_iff _ _ _).2 rfl)
      · cases hn
        exact .fails
  · rintro ⟨r, hr, ho⟩
    obtain ⟨n, u, hn⟩ := (key r).2 hr
    refine ⟨n, u.v, ?_⟩
    rw [hn]
    cases ho with
    | fails => rfl
    | nothing => dsimp only; rw [nothing]
    | value h => dsimp only; rw [render, (renders_iff _ _ _).1 h]

/-- C83: what the command line prints, without explanation: the answers of the arguments are tried in order, or all are
collected; they are those of the reference, in the scope of the variables on the command line, with the strategy asked for, whatever
the session was used for before. -/
theorem C83_prints (A : Cli) (he : StatelessEnv A.types.env) (hc : Readable A.types.env) {s : St} (hs : Session A.types.env s)
    (o : CommandOptions) (args : List Str) (hx : ¬Explains o) {tp : Option Nat} {dv : Option Value} {vars : Entries}
    (hp : Prepared A o tp dv vars) (out : Res (Bool × Str)) :
    (∃ n w, lookupAndRender A (eval A.types.env n) o args s.v = some (out, w)) ↔
      ∃ r, Finds A o (.nested A.scope (.map vars)) tp dv args r ∧ Prints A o r out :=
  prints_unlocked A he hs (session_locks he hc hs) o args hx hp out

/-- The explanation of what is found for the arguments. -/
def Spec.ExplanationOf (A : Cli) (s : St) (o : CommandOptions) (scope : Scope) (tp : Option Nat) (dv : Option Value) (args : List Str)
    (t : Tree) : Prop :=
  ∃ x n v u, ExplainerFor o (some x) ∧
    lookupFor A (eval A.types.env n) o tp dv args (nextInvocation s scope (some x)) = some (.ok v, u) ∧ u.tree = t

theorem explainerFor_one {o : CommandOptions} {x y : Option ExplOpts} (h : ExplainerFor o x) (h' : ExplainerFor o y) : x = y := by
  cases h <;> cases h' <;> simp_all

/-- C83 with explanation: the explanation of the lookup is printed, as text unless another rendering is asked for, whether anything is
found or not; and whether something is found is what it is without explanation. -/
theorem C83_explains (A : Cli) (he : StatelessEnv A.types.env) (hc : Readable A.types.env) {s : St} (hs : Session A.types.env s)
    (o : CommandOptions) (args : List Str) (hx : Explains o) {tp : Option Nat} {dv : Option Value} {vars : Entries}
    (hp : Prepared A o tp dv vars) (out : Res (Bool × Str)) :
    (∃ n w, lookupAndRender A (eval A.types.env n) o args s.v = some (out, w)) ↔
      ∃ r, Finds A o (.nested A.scope (.map vars)) tp dv args r ∧
        PrintsExplanation A o (ExplanationOf A s o (.nested A.scope (.map vars)) tp dv args) r out := by
  obtain ⟨x, hx'⟩ : ∃ x, explainerOf o = some x := by
    unfold explainerOf
    rw [if_pos (by simpa [Explains] using hx)]
    exact ⟨_, rfl⟩
  have key := finds_iff he hs (session_locks he hc hs) (.nested A.scope (.map vars)) o tp dv args (some x)
  have e : nextInvocation { v := s.v } (invocationScope A.scope (some vars)) (some x) = nextInvocation s (.nested A.scope (.map vars)) (some x) := rfl
  have hxe : ExplainerFor o (some x) := hx' ▸ C83_explainer o
  unfold lookupAndRender
  rw [hp.type, hp.default, hp.scope]
  simp only [bind, Res.bind, pure]
  rw [hx', e]
  have render : ∀ v t, renderFor A o v t = (renderTo A.render (renderingOf o "s") (.explanation t)).bind (fun s => .ok (v.isSome, s)) := by
    intro v t
    unfold renderFor
    rw [hx', renderingOf_eq]
    rfl
  constructor
  · rintro ⟨n, w, hn⟩
    cases hf : lookupFor A (eval A.types.env n) o tp dv args (nextInvocation s (.nested A.scope (.map vars)) (some x)) with
    | none => rw [hf] at hn; cases hn
    | some q =>
      obtain ⟨y, u⟩ := q
      rw [hf] at hn
      refine ⟨y, (key y).1 ⟨n, u, hf⟩, ?_⟩
      cases y with
      | ok v =>
        cases hn
        rw [render]
        exact .tree ⟨x, n, v, u, hxe, hf, rfl⟩ ((renders_iff _ _ _).2 rfl)
      | panic e => cases hn; exact .fails
  · rintro ⟨r, hr, ho⟩
    cases ho with
    | fails =>
      obtain ⟨n, u, hn⟩ := (key _).2 hr
      exact ⟨n, u.v, by rw [hn]⟩
    | @tree v t _ ht h =>
      obtain ⟨x', n, v', u, hx1, hn, rfl⟩ := ht
      cases explainerFor_one hx1 hxe
      have hv : v' = v := by
        obtain ⟨m, w, hm⟩ := (key _).2 hr
        have h1 := lookupFor_le A (Nat.le_max_left n m) hn
        rw [lookupFor_le A (Nat.le_max_right n m) hm] at h1
        cases h1
        rfl
      subst hv
      refine ⟨n, u.v, ?_⟩
      rw [hn]
      dsimp only
      rw [render, (renders_iff _ _ _).1 h]

/-- C83: where a flag is wrong, nothing is looked up, and that is the error. -/
theorem C83_rejected (A : Cli) (rec : Rec) (o : CommandOptions) (args : List Str) (v : View) (h : ¬∃ tp dv vars, Prepared A o tp dv vars) :
    ∃ e, lookupAndRender A rec o args v = some (.panic e, v) ∧
      (typeOf A.types.env o.type = .panic e ∨ defaultOf A.cli o.default = .panic e ∨ createScope A.cli o = .panic e) := by
  unfold lookupAndRender
  cases h1 : typeOf A.types.env o.type with
  | panic e => exact ⟨e, rfl, .inl rfl⟩
  | ok tp =>
    cases h2 : defaultOf A.cli o.default with
    | panic e => exact ⟨e, rfl, .inr (.inl rfl)⟩
    | ok dv =>
      cases h3 : createScope A.cli o with
      | panic e => exact ⟨e, rfl, .inr (.inr rfl)⟩
      | ok vars => exact absurd ⟨tp, dv, vars, h1, h2, h3⟩ h

/-! ### The server -/

/-- What a server holds after any requests, with whatever answers. -/
inductive Spec.Serving (A : Cli) (base : CommandOptions) : View → Prop
  | start : Serving A base (newInvocation A.scope none).v
  | request {v w : View} {r : Response} (n : Nat) (path : Str) (params : List (Str × Str)) (vars : List Str) : Serving A base v →
      serve A (eval A.types.env n) base path params vars v = some (r, w) → Serving A base w

theorem Spec.Serving.session {A : Cli} {base : CommandOptions} {v : View} (h : Serving A base v) : ∃ s, Session A.types.env s ∧ s.v = v := by
  induction h with
  | start => exact ⟨_, .start A.scope none, rfl⟩
  | request n path params vars _ hr ih =>
    obtain ⟨s, hs, rfl⟩ := ih
    unfold serve at hr
    split at hr
    · cases hr; exact ⟨s, hs, rfl⟩
    · split at hr
      · cases hr; exact ⟨s, hs, rfl⟩
      · split at hr
        · unfold doLookup at hr
          split at hr
          · cases hr; exact ⟨s, hs, rfl⟩
          · split at hr
            · cases hr
            · rename_i hl
              cases hr
              exact lookupAndRender_session hs hl
        · cases hr; exact ⟨s, hs, rfl⟩

theorem replies_iff (out : Res (Bool × Str)) (r : Response) : Replies out (r.code, r.body) ↔ answer out = r := by
  constructor
  · intro h
    obtain ⟨c, b⟩ := r
    generalize hx : (c, b) = x at h
    cases h <;> cases hx <;> rfl
  · intro h
    subst h
    rcases out with ⟨b, out⟩ | e
    · cases b
      · exact .nothing
      · exact .found
    · exact .failed

/-- C83 for the server: whatever has been requested before, the answer to a request is that for the answer of the reference, in the scope of
the variables of the server and of the request. -/
theorem C83_served (A : Cli) (he : StatelessEnv A.types.env) (hc : Readable A.types.env) (base : CommandOptions) {v : View}
    (hv : Serving A base v) (hx : ¬Explains base) (key : Str) (hp : KeptPath ("/lookup/".toList ++ key))
    (hk : '\n' ∉ key) (params : List (Str × Str)) (vars : List Str) {tp : Option Nat} {dv : Option Value} {scope : Entries}
    (hr : Prepared A (restOptions base params vars) tp dv scope) (r : Response) :
    (∃ n w, serve A (eval A.types.env n) base ("/lookup/".toList ++ key) params vars v = some (r, w)) ↔
      ∃ x out, Finds A (restOptions base params vars) (.nested A.scope (.map scope)) tp dv [key] x ∧
        Prints A (restOptions base params vars) x out ∧ Replies out (r.code, r.body) := by
  obtain ⟨s, hs, rfl⟩ := hv.session
  have h := C83_prints A he hc hs (restOptions base params vars) [key] hx hr
  simp only [serve_key A _ base key params vars s.v hp hk, replies_iff]
  constructor
  · rintro ⟨n, w, hn⟩
    cases hl : lookupAndRender A (eval A.types.env n) (restOptions base params vars) [key] s.v with
    | none => rw [hl] at hn; cases hn
    | some q =>
      obtain ⟨out, u⟩ := q
      rw [hl] at hn
      cases hn
      obtain ⟨x, h1, h2⟩ := (h out).1 ⟨n, _, hl⟩
      exact ⟨x, out, h1, h2, rfl⟩
  · rintro ⟨x, out, h1, h2, rfl⟩
    obtain ⟨n, w, hn⟩ := (h out).2 ⟨x, h1, h2⟩
    exact ⟨n, w, by rw [hn]⟩

/-- The value of a parameter of a request is the first that there is. -/
def Spec.FirstParam (params : List (Str × Str)) (k v : Str) : Prop := ∃ pre post, params = pre ++ (k, v) :: post ∧ ∀ p ∈ pre, p.1 ≠ k

theorem firstParam_iff (params : List (Str × Str)) (k v : Str) : FirstParam params k v ↔ assoc k params = some v := by
  induction params with
  | nil =>
    constructor
    · rintro ⟨pre, post, h, _⟩; cases pre <;> cases h
    · intro h; cases h
  | cons p params ih =>
    obtain ⟨k', v'⟩ := p
    unfold assoc
    by_cases hk : k = k'
    · subst hk
      rw [if_pos rfl]
      constructor
      · rintro ⟨pre, post, h, hpre⟩
        cases pre with
        | nil => cases h; rfl
        | cons q pre => cases h; exact absurd rfl (hpre (k, v') (by simp))
      · intro h; cases h; exact ⟨[], params, rfl, by simp⟩
    · rw [if_neg hk, ← ih]
      constructor
      · rintro ⟨pre, post, h, hpre⟩
        cases pre with
        | nil => cases h; exact absurd rfl hk
        | cons q pre => cases h; exact ⟨pre, post, rfl, fun p hp => hpre p (by simp [hp])⟩
      · rintro ⟨pre, post, rfl, hpre⟩
        refine ⟨(k', v') :: pre, post, rfl, fun p hp => ?_⟩
        rcases List.mem_cons.1 hp with rfl | hp
        · exact fun e => hk e.symm
        · exact hpre p hp

/-- C83: the options of a request are those in its parameters, and JSON is what is answered; only the default value may also be the
server's. -/
theorem C83_request (base : CommandOptions) (params : List (Str × Str)) (vars : List Str) :
    (restOptions base params vars).renderAs = "json".toList ∧ (restOptions base params vars).vars = vars ∧
    (∀ v, FirstParam params "merge".toList v → (restOptions base params vars).merge = v) ∧
    (∀ v, FirstParam params "type".toList v → (restOptions base params vars).type = v) ∧
    (∀ v, FirstParam params "default".toList v → (restOptions base params vars).default = some v) ∧
    ((¬∃ v, FirstParam params "merge".toList v) → (restOptions base params vars).merge = []) ∧
    ((¬∃ v, FirstParam params "type".toList v) → (restOptions base params vars).type = []) ∧
    ((¬∃ v, FirstParam params "default".toList v) → (restOptions base params vars).default = base.default) := by
  simp only [firstParam_iff]
  have none : ∀ k, (¬∃ v, assoc k params = some v) → assoc k params = none := by
    intro k h
    cases hk : assoc k params with
    | none => rfl
    | some v => exact absurd ⟨v, hk⟩ h
  refine ⟨rfl, rfl, fun v h => ?_, fun v h => ?_, fun v h => ?_, fun h => ?_, fun h => ?_, fun h => ?_⟩
  · simp only [restOptions, paramGet, h]; rfl
  · simp only [restOptions, paramGet, h]; rfl
  · simp only [restOptions, h]
  · simp only [restOptions, paramGet, none _ h]; rfl
  · simp only [restOptions, paramGet, none _ h]; rfl
  · simp only [restOptions, none _ h]

/-! ### Not vacuous -/

theorem cliWorld_stateless : StatelessEnv cliWorld.types.env := ⟨.inl rfl, (fun _ _ h => nomatch h), (fun _ _ h => nomatch h), (fun _ _ _ h => nomatch h)⟩

/-- Whether there is a configuration. -/
def hasCfg : Res Cfg → Bool
  | .ok _ => true
  | .panic _ => false

theorem cliWorld_readable : Readable cliWorld.types.env := by
  have h : hasCfg (newCfg cliWorld.types.env.cfg cliWorld.types.env.configPath (cliWorld.types.env.readYaml cliWorld.types.env.configPath)) = true := by
    decide +kernel
  cases hc : newCfg cliWorld.types.env.cfg cliWorld.types.env.configPath (cliWorld.types.env.readYaml cliWorld.types.env.configPath) with
  | ok c => exact ⟨c, hc⟩
  | panic e => rw [hc] at h; cases h

/-- Not vacuous: in a session that has looked up something else before, what is printed is the list merged by the lookup options. -/
example : ∃ s, Session cliWorld.types.env s ∧ s.v.hashes ≠ [] ∧
    Prepared cliWorld { renderAs := "json".toList } none none [] ∧
    (∃ n w, lookupAndRender cliWorld (eval cliWorld.types.env n) { renderAs := "json".toList } ["z".toList, "x".toList] s.v =
      some (.ok (true, "1,2,\n".toList), w)) := by
  have h : (match (eval cliWorld.types.env 8).lookup ⟨"y".toList, [.name "y".toList]⟩ [] (newInvocation (.map []) none) with
    | some (_, t) => decide (t.v.hashes.length = 2) && decide ((lookupAndRender cliWorld (eval cliWorld.types.env 8) { renderAs := "json".toList }
        ["z".toList, "x".toList] t.v).map (·.1) = some (.ok (true, "1,2,\n".toList)))
    | none => false) = true := by decide +kernel
  cases hr : (eval cliWorld.types.env 8).lookup ⟨"y".toList, [.name "y".toList]⟩ [] (newInvocation (.map []) none) with
  | none => rw [hr] at h; cases h
  | some q =>
    obtain ⟨r, t⟩ := q
    rw [hr] at h
    simp only [Bool.and_eq_true, decide_eq_true_eq] at h
    refine ⟨t, .lookup 8 _ _ (.start _ _) hr, fun e => ?_, ⟨rfl, rfl, rfl⟩, ?_⟩
    · rw [e] at h; cases h.1
    · cases hl : lookupAndRender cliWorld (eval cliWorld.types.env 8) { renderAs := "json".toList } ["z".toList, "x".toList] t.v with
      | none => rw [hl] at h; cases h.2
      | some q => rw [hl] at h; obtain ⟨o, w⟩ := q; cases h.2; exact ⟨8, w, hl⟩

/-- Not vacuous for the server: a request with a default value after one that has found a value. -/
example : ∃ v, Serving cliWorld {} v ∧ ∃ n w r, serve cliWorld (eval cliWorld.types.env n) {} "/lookup/nope".toList [("default".toList, "x".toList)] [] v = some (r, w) ∧
    r.code = 200 := by
  have h : (match serve cliWorld (eval cliWorld.types.env 8) {} "/lookup/y".toList [] [] (newInvocation cliWorld.scope none).v with
    | some (r, v) => decide (r.code = 200) && decide ((serve cliWorld (eval cliWorld.types.env 8) {} "/lookup/nope".toList
        [("default".toList, "x".toList)] [] v).map (·.1.code) = some 200)
    | none => false) = true := by decide +kernel
  cases hr : serve cliWorld (eval cliWorld.types.env 8) {} "/lookup/y".toList [] [] (newInvocation cliWorld.scope none).v with
  | none => rw [hr] at h; cases h
  | some q =>
    obtain ⟨r, v⟩ := q
    rw [hr] at h
    simp only [Bool.and_eq_true, decide_eq_true_eq] at h
    refine ⟨v, .request 8 _ _ _ .start hr, ?_⟩
    cases hl : serve cliWorld (eval cliWorld.types.env 8) {} "/lookup/nope".toList [("default".toList, "x".toList)] [] v with
    | none => rw [hl] at h; cases h.2
    | some q => rw [hl] at h; obtain ⟨o, w⟩ := q; exact ⟨8, w, o, hl, by simpa using h.2⟩

/-- Not vacuous for explanations. -/
example : ∃ n w out, lookupAndRender cliWorld (eval cliWorld.types.env n) { explainData := true } ["y".toList] (newInvocation (.map []) none).v =
    some (.ok (true, out), w) ∧ Prepared cliWorld { explainData := true } none none [] := by
  have h : (match lookupAndRender cliWorld (eval cliWorld.types.env 8) { explainData := true } ["y".toList] (newInvocation (.map []) none).v with
    | some (.ok (true, _), _) => true
    | _ => false) = true := by decide +kernel
  split at h
  · rename_i out w e; exact ⟨8, w, out, e, rfl, rfl, rfl⟩
  · cases h

end Hiera
