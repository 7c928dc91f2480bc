/- C85: what a program gets from `Lookup`, `Lookup2` and `LookupAll`. -/
import Verif.Spec.Calls
import Verif.Props.Printed

set_option autoImplicit false

namespace Hiera
open Value Spec World

theorem chosen_mono {d d' : Res (Option Value) → Prop} {names : List Str} {ov de : Option Entries} {dv : Option Value}
    {df : Option (Res Value)} {r : Res (Option Value)} (hd : ∀ r, d r → d' r) (h : Chosen d names ov de dv df r) :
    Chosen d' names ov de dv df r := by
  cases h with
  | override h => exact .override h
  | data h1 h2 => exact .data h1 (hd _ h2)
  | failed h1 h2 => exact .failed h1 (hd _ h2)
  | hash h1 h2 h3 => exact .hash h1 (hd _ h2) h3
  | value h1 h2 h3 h4 => exact .value h1 (hd _ h2) h3 h4
  | func h1 h2 h3 h4 h5 => exact .func h1 (hd _ h2) h3 h4 h5
  | funcFails h1 h2 h3 h4 h5 => exact .funcFails h1 (hd _ h2) h3 h4 h5
  | nothing h1 h2 h3 h4 h5 => exact .nothing h1 (hd _ h2) h3 h4 h5

/-- The ranking with states, where the default function does nothing but to give a result. -/
theorem ranked_chosen {ask : Str → M (Option Value)} {names : List Str} {ov de : Option Entries} {dv : Option Value}
    {df : Option (Res Value)} {s : St} {r : Res (Option Value)} :
    (∃ u, Ranked ask names ov de dv (df.map lift) s r u) ↔ Chosen (fun r => ∃ u, FirstAnswer ask names s r u) names ov de dv df r := by
  constructor
  · rintro ⟨u, h⟩
    cases h with
    | override h => exact .override h
    | data h1 h2 => exact .data h1 ⟨_, h2⟩
    | failed h1 h2 => exact .failed h1 ⟨_, h2⟩
    | hash h1 h2 h3 => exact .hash h1 ⟨_, h2⟩ h3
    | value h1 h2 h3 h4 => exact .value h1 ⟨_, h2⟩ h3 h4
    | func h1 h2 h3 h4 h5 h6 =>
      cases df with
      | none => cases h5
      | some x =>
        cases h5
        cases x with
        | ok v => cases h6; exact .func h1 ⟨_, h2⟩ h3 h4 rfl
        | panic e => cases h6; exact .funcFails h1 ⟨_, h2⟩ h3 h4 rfl
    | nothing h1 h2 h3 h4 h5 =>
      cases df with
      | none => exact .nothing h1 ⟨_, h2⟩ h3 h4 rfl
      | some x => cases h5
  · intro h
    cases h with
    | override h => exact ⟨_, .override h⟩
    | data h1 h2 => obtain ⟨u, h2⟩ := h2; exact ⟨_, .data h1 h2⟩
    | failed h1 h2 => obtain ⟨u, h2⟩ := h2; exact ⟨_, .failed h1 h2⟩
    | hash h1 h2 h3 => obtain ⟨u, h2⟩ := h2; exact ⟨_, .hash h1 h2 h3⟩
    | value h1 h2 h3 h4 => obtain ⟨u, h2⟩ := h2; exact ⟨_, .value h1 h2 h3 h4⟩
    | @func v h1 h2 h3 h4 h5 =>
      obtain ⟨u, h2⟩ := h2
      subst h5
      exact ⟨u, .func (f := lift (.ok v)) (r := .ok v) h1 h2 h3 h4 rfl rfl⟩
    | @funcFails e h1 h2 h3 h4 h5 =>
      obtain ⟨u, h2⟩ := h2
      subst h5
      exact ⟨u, .func (f := lift (.panic e)) (r := .panic e) h1 h2 h3 h4 rfl rfl⟩
    | nothing h1 h2 h3 h4 h5 =>
      obtain ⟨u, h2⟩ := h2
      subst h5
      exact ⟨u, .nothing h1 h2 h3 h4 rfl⟩

/-- A statement about any fuel, where different parts may need different fuel. -/
theorem chosen_fuel {d : Nat → Res (Option Value) → Prop} {names : List Str} {ov de : Option Entries} {dv : Option Value}
    {df : Option (Res Value)} {r : Res (Option Value)} :
    (∃ n, Chosen (d n) names ov de dv df r) ↔ Chosen (fun r => ∃ n, d n r) names ov de dv df r := by
  constructor
  · rintro ⟨n, h⟩
    exact chosen_mono (fun r h => ⟨n, h⟩) h
  · intro h
    cases h with
    | override h => exact ⟨0, .override h⟩
    | data h1 h2 => obtain ⟨n, h2⟩ := h2; exact ⟨n, .data h1 h2⟩
    | failed h1 h2 => obtain ⟨n, h2⟩ := h2; exact ⟨n, .failed h1 h2⟩
    | hash h1 h2 h3 => obtain ⟨n, h2⟩ := h2; exact ⟨n, .hash h1 h2 h3⟩
    | value h1 h2 h3 h4 => obtain ⟨n, h2⟩ := h2; exact ⟨n, .value h1 h2 h3 h4⟩
    | func h1 h2 h3 h4 h5 => obtain ⟨n, h2⟩ := h2; exact ⟨n, .func h1 h2 h3 h4 h5⟩
    | funcFails h1 h2 h3 h4 h5 => obtain ⟨n, h2⟩ := h2; exact ⟨n, .funcFails h1 h2 h3 h4 h5⟩
    | nothing h1 h2 h3 h4 h5 => obtain ⟨n, h2⟩ := h2; exact ⟨n, .nothing h1 h2 h3 h4 h5⟩

/-- C85 for `Lookup2`: in any invocation of a session, the outcomes are the value of the source of the highest rank, made to be
of the requested type, where the data has for the names what the reference says. -/
theorem C85_lookup2 (T : Types) (he : StatelessEnv T.env) (hc : Readable T.env) {s : St} (hs : Session T.env s) (scope : Scope)
    (ex : Option ExplOpts) (names : List Str) (t : Option Nat) (dv : Option Value) (override defaults : Option Entries) (opts : Entries)
    (df : Option (Res Value)) (ho : ∀ es, override = some es → UniqueKeys es) (hd : ∀ es, defaults = some es → UniqueKeys es)
    (r' : Res (Option Value)) :
    (∃ n u, lookup2 T (eval T.env n) names t dv override defaults opts (df.map lift) (nextInvocation s scope ex) = some (r', u)) ↔
      ∃ r, Chosen (FirstOf (NameAnswer T.env scope opts) names) names override defaults dv df r ∧
        Delivered T.isInstance (fun t v => T.env.newValue t v none) t r r' := by
  have hl := session_locks he hc hs
  have data : ∀ r, (∃ n u, FirstAnswer (lookupName (eval T.env n) opts) names (nextInvocation s scope ex) r u) ↔
      FirstOf (NameAnswer T.env scope opts) names r := fun r => by
    simp only [← lookupNames_iff]
    exact names_first he hs hl opts names (Calm.start T.env s scope ex) r
  constructor
  · rintro ⟨n, u, h⟩
    obtain ⟨r, h1, h2⟩ := (C24_ranked T _ names t dv override defaults opts _ ho hd _ _ _).1 h
    exact ⟨r, chosen_mono (fun r h => (data r).1 ⟨n, h⟩) (ranked_chosen.1 ⟨u, h1⟩), h2⟩
  · rintro ⟨r, h1, h2⟩
    obtain ⟨n, h⟩ := chosen_fuel.2 (chosen_mono (fun r h => (data r).2 h) h1)
    obtain ⟨u, h⟩ := ranked_chosen.2 h
    exact ⟨n, u, (C24_ranked T _ names t dv override defaults opts _ ho hd _ _ _).2 ⟨r, h, h2⟩⟩

/-! ### `Lookup` -/

theorem toMap_iff (what : Str) (v : Option Value) (es : Entries) : toMap what v = .ok es ↔ Represents v es := by
  constructor
  · intro h
    cases v with
    | none => cases h; exact .absent
    | some v =>
      cases v
      case null => cases h; exact .nil
      case map => cases h; exact .hash
      all_goals cases h
  · intro h; cases h <;> rfl

/-- C85: an argument that has to be a hash is one, or is absent, or it is an error that names the argument. -/
theorem C85_hash (what : Str) (v : Option Value) :
    (∃ es, Represents v es ∧ toMap what v = .ok es) ∨ (¬∃ es, Represents v es) ∧ toMap what v = .panic (.notMap what) := by
  cases h : toMap what v with
  | ok es => exact .inl ⟨es, (toMap_iff what v es).1 h, rfl⟩
  | panic e =>
    refine .inr ⟨fun ⟨es, hr⟩ => ?_, ?_⟩
    · rw [(toMap_iff what v es).2 hr] at h; cases h
    · cases v with
      | none => cases h
      | some v =>
        cases v
        case null => cases h
        case map => cases h
        all_goals (cases h; rfl)

/-- C85 for `Lookup`: the answer for the name with the given options, and the default value if there is none. -/
theorem C85_lookup (T : Types) (he : StatelessEnv T.env) (hc : Readable T.env) {s : St} (hs : Session T.env s) (scope : Scope)
    (ex : Option ExplOpts) (name : Str) (dv : Option Value) {options : Option Value} {opts : Entries} (ho : Represents options opts)
    (r' : Res (Option Value)) :
    (∃ n u, lookupOne T (eval T.env n) name dv options (nextInvocation s scope ex) = some (r', u)) ↔
      ∃ r, NameAnswer T.env scope opts name r ∧ OrDefault dv r r' := by
  have e : ∀ n, lookupOne T (eval T.env n) name dv options = lookup2 T (eval T.env n) [name] none dv none none opts ((none : Option (Res Value)).map lift) :=
    fun n => by
      unfold lookupOne
      rw [(toMap_iff _ options opts).2 ho]
      rfl
  simp only [e]
  rw [C85_lookup2 T he hc hs scope ex [name] none dv none none opts none (fun _ h => nomatch h) (fun _ h => nomatch h)]
  have no : NoneIn [name] none := fun _ h => nomatch h
  have one : ∀ r, FirstOf (NameAnswer T.env scope opts) [name] r ↔ NameAnswer T.env scope opts name r := fun r => by
    constructor
    · intro h
      cases h with
      | found h => exact h
      | fails h => exact h
      | next h1 h2 => cases h2; exact h1
    · intro h
      match r, h with
      | .ok (some v), h => exact .found h
      | .ok none, h => exact .next h .none
      | .panic e, h => exact .fails h
  constructor
  · rintro ⟨r, h1, h2⟩
    have same : r' = r := by
      cases h2 with
      | panic => rfl
      | nothing => rfl
      | value h => cases h; rfl
      | failed h => cases h
    subst same
    cases h1 with
    | override h => obtain ⟨_, _, _, _, h, _⟩ := h; cases h
    | data _ h => exact ⟨_, (one _).1 h, .found⟩
    | failed _ h => exact ⟨_, (one _).1 h, .fails⟩
    | hash _ _ h => obtain ⟨_, _, _, _, h, _⟩ := h; cases h
    | value _ h _ hv => subst hv; exact ⟨_, (one _).1 h, .default⟩
    | func _ _ _ _ h => cases h
    | funcFails _ _ _ _ h => cases h
    | nothing _ h _ hv => subst hv; exact ⟨_, (one _).1 h, .default⟩
  · rintro ⟨r, h1, h2⟩
    cases h2 with
    | fails => exact ⟨_, .failed no ((one _).2 h1), .panic⟩
    | found => exact ⟨_, .data no ((one _).2 h1), .value .any⟩
    | default =>
      cases dv with
      | none => exact ⟨_, .nothing no ((one _).2 h1) no rfl rfl, .nothing⟩
      | some v => exact ⟨_, .value no ((one _).2 h1) no rfl, .value .any⟩

/-- C85: options that are not a hash are an error, and nothing is looked up. -/
theorem C85_options (T : Types) (rec : Rec) (name : Str) (dv : Option Value) (options : Option Value) (h : ¬∃ es, Represents options es) (s : St) :
    lookupOne T rec name dv options s = some (.panic (.notMap "lookup options".toList), s) := by
  rcases C85_hash "lookup options".toList options with ⟨es, h1, _⟩ | ⟨_, h2⟩
  · exact absurd ⟨es, h1⟩ h
  · unfold lookupOne
    rw [h2]
    rfl

/-- C85: the scope of an invocation is that of the session, or the given hash before it. -/
theorem C85_scope (session : Scope) (si : Option Value) : match si with
    | none => givenScope session si = .ok session
    | some v => (∃ es, Represents (some v) es ∧ ∃ sc, givenScope session si = .ok sc ∧
        ∀ x, sc.get x = ((Entries.getS es x).or (session.get x))) ∨
      (¬∃ es, Represents (some v) es) ∧ givenScope session si = .panic (.notMap "invocation scope".toList) := by
  cases si with
  | none => rfl
  | some v =>
    dsimp only
    unfold givenScope
    rcases C85_hash "invocation scope".toList (some v) with ⟨es, h1, h2⟩ | ⟨h1, h2⟩
    · refine .inl ⟨es, h1, _, by dsimp only; rw [h2], fun x => ?_⟩
      show (match Entries.getS es x with | some v => some v | none => session.get x) = _
      cases Entries.getS es x <;> rfl
    · exact .inr ⟨h1, by dsimp only; rw [h2]⟩

/-! ### `LookupAll` -/

theorem lookupForAll_step {T : Types} (he : StatelessEnv T.env) {s : St} (hs : Session T.env s) (hl : s.v.locked = []) {scope : Scope}
    {ov de : Option Entries} {opts : Entries} {name : Str} {t u : St} (ht : Calm T.env s scope t) {n : Nat} {v : Option Value}
    (h : lookupForAll (eval T.env n) ov de opts name t = some (.ok v, u)) : Calm T.env s scope u := by
  unfold lookupForAll at h
  cases h1 : lookupInMap [name] ov with
  | some v => rw [h1] at h; cases h; exact ht
  | none =>
    rw [h1] at h
    dsimp only at h
    cases ha : lookupName (eval T.env n) opts name t with
    | none => rw [bind_none ha] at h; cases h
    | some q =>
      obtain ⟨x, w⟩ := q
      cases x with
      | panic e => rw [bind_panic ha] at h; cases h
      | ok v =>
        rw [bind_ok ha] at h
        have hw := ht.name_step he hs hl ha
        cases v <;> (cases h; exact hw)

theorem lookupForAll_le (E : Env) {n m : Nat} (h : n ≤ m) {ov de : Option Entries} {opts : Entries} {name : Str} {t : St}
    {r : Res (Option Value) × St} (hn : lookupForAll (eval E n) ov de opts name t = some r) :
    lookupForAll (eval E m) ov de opts name t = some r := by
  unfold lookupForAll at hn ⊢
  cases h1 : lookupInMap [name] ov with
  | some v => rw [h1] at hn; exact hn
  | none =>
    rw [h1] at hn
    dsimp only at hn ⊢
    cases ha : lookupName (eval E n) opts name t with
    | none => rw [bind_none ha] at hn; cases hn
    | some q =>
      obtain ⟨x, w⟩ := q
      have hb := lookupName_le E h ha
      cases x with
      | panic e => rw [bind_panic ha] at hn; rw [bind_panic hb]; exact hn
      | ok v => rw [bind_ok ha] at hn; rw [bind_ok hb]; exact hn

theorem lookupForAll_chosen {E : Env} (he : StatelessEnv E) {s : St} (hs : Session E s) (hl : s.v.locked = []) {scope : Scope}
    {ov de : Option Entries} (ho : ∀ es, ov = some es → UniqueKeys es) (hd : ∀ es, de = some es → UniqueKeys es) {opts : Entries} {name : Str}
    {t : St} (ht : Calm E s scope t) (r : Res (Option Value)) :
    (∃ n u, lookupForAll (eval E n) ov de opts name t = some (r, u)) ↔
      Chosen (NameAnswer E scope opts name) [name] ov de none none r := by
  have nm := ht.name he hs hl opts name
  constructor
  · rintro ⟨n, u, h⟩
    unfold lookupForAll at h
    cases h1 : lookupInMap [name] ov with
    | some v => rw [h1] at h; cases h; exact .override ((lookupInMap_some ho _ _).1 h1)
    | none =>
      have no := (lookupInMap_none ho _).1 h1
      rw [h1] at h
      dsimp only at h
      cases ha : lookupName (eval E n) opts name t with
      | none => rw [bind_none ha] at h; cases h
      | some q =>
        obtain ⟨x, w⟩ := q
        have hx := (nm x).1 ⟨n, w, ha⟩
        cases x with
        | panic e => rw [bind_panic ha] at h; cases h; exact .failed no hx
        | ok v =>
          rw [bind_ok ha] at h
          cases v with
          | some v => cases h; exact .data no hx
          | none =>
            cases h
            cases h2 : lookupInMap [name] de with
            | some v => exact .hash no hx ((lookupInMap_some hd _ _).1 h2)
            | none => exact .nothing no hx ((lookupInMap_none hd _).1 h2) rfl rfl
  · intro h
    unfold lookupForAll
    cases h with
    | override h => rw [(lookupInMap_some ho _ _).2 h]; exact ⟨0, t, rfl⟩
    | data h1 h2 =>
      rw [(lookupInMap_none ho _).2 h1]
      obtain ⟨n, u, hn⟩ := (nm _).2 h2
      exact ⟨n, u, by dsimp only; rw [bind_ok hn]; rfl⟩
    | failed h1 h2 =>
      rw [(lookupInMap_none ho _).2 h1]
      obtain ⟨n, u, hn⟩ := (nm _).2 h2
      exact ⟨n, u, by dsimp only; rw [bind_panic hn]⟩
    | hash h1 h2 h3 =>
      rw [(lookupInMap_none ho _).2 h1, (lookupInMap_some hd _ _).2 h3]
      obtain ⟨n, u, hn⟩ := (nm _).2 h2
      exact ⟨n, u, by dsimp only; rw [bind_ok hn]; rfl⟩
    | value _ _ _ h => cases h
    | func _ _ _ _ h => cases h
    | funcFails _ _ _ _ h => cases h
    | nothing h1 h2 h3 =>
      rw [(lookupInMap_none ho _).2 h1, (lookupInMap_none hd _).2 h3]
      obtain ⟨n, u, hn⟩ := (nm _).2 h2
      exact ⟨n, u, by dsimp only; rw [bind_ok hn]; rfl⟩

theorem allLoop_le (E : Env) (T : Types) {n m : Nat} (h : n ≤ m) {ov de : Option Entries} {opts : Entries} (tm : Option (Str → Option Nat))
    (names : List Str) : ∀ {es : Entries} {t : St} {r : Res Entries × St}, lookupAllLoop T (eval E n) tm ov de opts names es t = some r →
    lookupAllLoop T (eval E m) tm ov de opts names es t = some r := by
  induction names with
  | nil => exact fun h => h
  | cons name names ih =>
    intro es t r hn
    unfold lookupAllLoop at hn ⊢
    cases ha : lookupForAll (eval E n) ov de opts name t with
    | none => rw [bind_none ha] at hn; cases hn
    | some q =>
      obtain ⟨x, u⟩ := q
      have hb := lookupForAll_le E h ha
      cases x with
      | panic e => rw [bind_panic ha] at hn; rw [bind_panic hb]; exact hn
      | ok v =>
        rw [bind_ok ha] at hn
        rw [bind_ok hb]
        cases v with
        | none => exact ih hn
        | some v =>
          dsimp only at hn ⊢
          cases hw : ensureTypeFromMap T tm name v with
          | panic e => rw [hw] at hn; exact hn
          | ok w => rw [hw] at hn; exact ih hn

theorem allLoop_all {T : Types} (he : StatelessEnv T.env) {s : St} (hs : Session T.env s) (hl : s.v.locked = []) {scope : Scope}
    {ov de : Option Entries} (ho : ∀ es, ov = some es → UniqueKeys es) (hd : ∀ es, de = some es → UniqueKeys es) (opts : Entries)
    (tm : Option (Str → Option Nat)) (names : List Str) : ∀ {t : St}, Calm T.env s scope t → ∀ es r,
    (∃ n u, lookupAllLoop T (eval T.env n) tm ov de opts names es t = some (r, u)) ↔
      ∃ r', AllOf (fun n => Chosen (NameAnswer T.env scope opts n) [n] ov de none none)
          (fun n v => MemberTyped T.isInstance (fun t v => T.env.newValue t v none) n v tm) names r' ∧
        r = afterAll es r' := by
  induction names with
  | nil =>
    intro t _ es r
    constructor
    · rintro ⟨n, u, h⟩; cases h; exact ⟨_, .nil, rfl⟩
    · rintro ⟨r', h, rfl⟩; cases h; exact ⟨0, t, rfl⟩
  | cons name names ih =>
    intro t ht es r
    constructor
    · rintro ⟨n, u, h⟩
      unfold lookupAllLoop at h
      cases ha : lookupForAll (eval T.env n) ov de opts name t with
      | none => rw [bind_none ha] at h; cases h
      | some q =>
        obtain ⟨x, w⟩ := q
        have hx := (lookupForAll_chosen he hs hl ho hd ht x).1 ⟨n, w, ha⟩
        cases x with
        | panic e => rw [bind_panic ha] at h; cases h; exact ⟨_, .fails hx, rfl⟩
        | ok v =>
          rw [bind_ok ha] at h
          have hw := lookupForAll_step he hs hl ht ha
          cases v with
          | none =>
            obtain ⟨r', h1, h2⟩ := (ih hw es r).1 ⟨n, u, h⟩
            exact ⟨r', .missing hx h1, h2⟩
          | some v =>
            dsimp only at h
            cases hy : ensureTypeFromMap T tm name v with
            | panic e => rw [hy] at h; cases h; exact ⟨_, .untyped hx ((memberTyped_iff T tm name v _).1 hy), rfl⟩
            | ok y =>
              rw [hy] at h
              obtain ⟨r', h1, h2⟩ := (ih hw _ r).1 ⟨n, u, h⟩
              have ty := (memberTyped_iff T tm name v _).1 hy
              cases r' with
              | ok more => exact ⟨_, .found hx ty h1, h2⟩
              | panic e => exact ⟨_, .later hx ty h1, h2⟩
    · rintro ⟨r', h, rfl⟩
      have one := fun r => (lookupForAll_chosen he hs hl ho hd (opts := opts) (name := name) ht r).2
      unfold lookupAllLoop
      cases h with
      | fails ha => obtain ⟨n, u, hn⟩ := one _ ha; exact ⟨n, u, by rw [bind_panic hn]; rfl⟩
      | missing ha h =>
        obtain ⟨n, u, hn⟩ := one _ ha
        obtain ⟨m, w, hm⟩ := (ih (lookupForAll_step he hs hl ht hn) es _).2 ⟨_, h, rfl⟩
        refine ⟨max n m, w, ?_⟩
        rw [bind_ok (lookupForAll_le T.env (Nat.le_max_left n m) hn)]
        exact allLoop_le T.env T (Nat.le_max_right n m) tm names hm
      | untyped ha ty =>
        obtain ⟨n, u, hn⟩ := one _ ha
        refine ⟨n, u, ?_⟩
        rw [bind_ok hn]
        dsimp only
        rw [(memberTyped_iff T tm name _ _).2 ty]
        rfl
      | @found _ _ v y more ha ty h =>
        obtain ⟨n, u, hn⟩ := one _ ha
        obtain ⟨m, w, hm⟩ := (ih (lookupForAll_step he hs hl ht hn) (Entries.put es (.str name) y) _).2 ⟨_, h, rfl⟩
        refine ⟨max n m, w, ?_⟩
        rw [bind_ok (lookupForAll_le T.env (Nat.le_max_left n m) hn)]
        dsimp only
        rw [(memberTyped_iff T tm name _ _).2 ty]
        exact allLoop_le T.env T (Nat.le_max_right n m) tm names hm
      | @later _ _ v y e ha ty h =>
        obtain ⟨n, u, hn⟩ := one _ ha
        obtain ⟨m, w, hm⟩ := (ih (lookupForAll_step he hs hl ht hn) (Entries.put es (.str name) y) _).2 ⟨_, h, rfl⟩
        refine ⟨max n m, w, ?_⟩
        rw [bind_ok (lookupForAll_le T.env (Nat.le_max_left n m) hn)]
        dsimp only
        rw [(memberTyped_iff T tm name _ _).2 ty]
        exact allLoop_le T.env T (Nat.le_max_right n m) tm names hm

/-- C85 for `LookupAll`: the hash of the names that have a value in the source of the highest rank, each made to be of the type
that the struct type has for it; the first error is the error of it all. -/
theorem C85_lookupAll (T : Types) (he : StatelessEnv T.env) (hc : Readable T.env) {s : St} (hs : Session T.env s) (scope : Scope)
    (ex : Option ExplOpts) (names : List Str) (tm : Option (Str → Option Nat)) (override defaults : Option Entries) (opts : Entries)
    (ho : ∀ es, override = some es → UniqueKeys es) (hd : ∀ es, defaults = some es → UniqueKeys es) (r : Res Value) :
    (∃ n u, lookupAll T (eval T.env n) names tm override defaults opts (nextInvocation s scope ex) = some (r, u)) ↔
      ∃ r', AllOf (fun n => Chosen (NameAnswer T.env scope opts n) [n] override defaults none none)
          (fun n v => MemberTyped T.isInstance (fun t v => T.env.newValue t v none) n v tm) names r' ∧
        r = (match r' with | .ok es => .ok (.map (Entries.putAll [] es)) | .panic e => .panic e) := by
  have loop := allLoop_all he hs (session_locks he hc hs) ho hd opts tm names (Calm.start T.env s scope ex) []
  have e : ∀ n t, lookupAll T (eval T.env n) names tm override defaults opts t =
      (lookupAllLoop T (eval T.env n) tm override defaults opts names [] >>= fun r => (pure (.map r) : M Value)) t := fun _ _ => rfl
  simp only [e]
  constructor
  · rintro ⟨n, u, h⟩
    cases hx : lookupAllLoop T (eval T.env n) tm override defaults opts names [] (nextInvocation s scope ex) with
    | none => rw [bind_none hx] at h; cases h
    | some q =>
      obtain ⟨x, w⟩ := q
      obtain ⟨r', h1, h2⟩ := (loop x).1 ⟨n, w, hx⟩
      refine ⟨r', h1, ?_⟩
      cases x with
      | panic e => rw [bind_panic hx] at h; cases h; cases r' <;> cases h2; rfl
      | ok es => rw [bind_ok hx] at h; cases h; cases r' <;> cases h2; rfl
  · rintro ⟨r', h1, rfl⟩
    obtain ⟨n, u, hn⟩ := (loop _).2 ⟨r', h1, rfl⟩
    cases r' with
    | ok es => exact ⟨n, u, by rw [bind_ok hn]; rfl⟩
    | panic e => exact ⟨n, u, by rw [bind_panic hn]⟩

/-! ### Not vacuous -/

/-- What `Lookup` gives in a session that has looked up something before. -/
def callAsk (name : String) (dv options : Option Value) : Option (Res (Option Value)) :=
  match (eval cliWorld.types.env 8).lookup ⟨"y".toList, [.name "y".toList]⟩ [] (newInvocation (.map []) none) with
  | some (_, t) => (lookupOne cliWorld.types (eval cliWorld.types.env 8) name.toList dv options (nextInvocation t (.map []) none)).map (·.1)
  | none => none

example : callAsk "y" (some (.int 0)) none = some (.ok (some (.arr [.int 1]))) ∧
    callAsk "y" none (some (.map [(s "merge", s "unique")])) = some (.ok (some (.arr [.int 1, .int 2]))) ∧
    callAsk "z" (some (.int 0)) (some .null) = some (.ok (some (.int 0))) ∧ callAsk "z" none none = some (.ok none) ∧
    callAsk "y" none (some (.int 1)) = some (.panic (.notMap "lookup options".toList)) := by decide +kernel

/-- What `LookupAll` gives with overrides and defaults. -/
def callAll (names : List String) (override defaults : Option Entries) : Option (Res Value) :=
  (lookupAll cliWorld.types (eval cliWorld.types.env 8) (names.map String.toList) none override defaults [] (newInvocation (.map []) none)).map (·.1)

example : callAll ["y", "z", "x", "w"] (some [(s "x", .int 7)]) (some [(s "z", .int 8), (s "y", .int 9)]) =
    some (.ok (.map [(s "y", .arr [.int 1]), (s "z", .int 8), (s "x", .int 7)])) := by decide +kernel

example : UniqueKeys [(s "x", .int 7)] ∧ UniqueKeys [(s "z", .int 8), (s "y", .int 9)] := by
  simp [UniqueKeys, Value.equals, s]

end Hiera
