/- C24-C26: the functions of package `hiera`. -/
import Verif.Spec.Api
import Verif.Model.Api
import Verif.Lemmas.Config
import Verif.Lemmas.Fuel
import Verif.Lemmas.InterpEval
import Verif.Lemmas.World

set_option autoImplicit false

namespace Hiera
open Value Spec World

/-! ### Sources -/

theorem lookupInMap_some {m : Option Entries} (hu : ∀ es, m = some es → UniqueKeys es) (names : List Str) (v : Value) :
    lookupInMap names m = some v ↔ FirstIn names m v := by
  cases m with
  | none =>
    constructor
    · intro h; cases h
    · rintro ⟨es, _, _, _, h, _⟩; cases h
  | some es =>
    have hu := hu es rfl
    have loop : ∀ ns : List Str, lookupInMap.go es ns = some v ↔ FirstIn ns (some es) v := by
      intro ns
      induction ns with
      | nil =>
        constructor
        · intro h; cases h
        · rintro ⟨_, pre, n, post, _, h, _⟩
          have := congrArg List.length h
          simp at this
      | cons n ns ih =>
        unfold lookupInMap.go
        cases hg : Entries.getS es n with
        | some w =>
          simp only [Option.some.injEq]
          constructor
          · rintro rfl
            exact ⟨es, [], n, ns, rfl, rfl, (getS_iff hu n w).1 hg, by simp⟩
          · rintro ⟨es', pre, n', post, h1, h2, h3, h4⟩
            cases h1
            cases pre with
            | nil =>
              cases h2
              rw [(getS_iff hu n v).2 h3] at hg
              cases hg; rfl
            | cons x pre =>
              simp only [List.cons_append, List.cons.injEq] at h2
              obtain ⟨rfl, _⟩ := h2
              exact absurd ⟨w, (getS_iff hu n w).1 hg⟩ (h4 n (by simp))
        | none =>
          simp only
          rw [ih]
          have hn := (getS_none hu n).1 hg
          constructor
          · rintro ⟨es', pre, n', post, h1, h2, h3, h4⟩
            cases h1
            refine ⟨es, n :: pre, n', post, rfl, by rw [h2]; rfl, h3, ?_⟩
            intro x hx
            rcases List.mem_cons.1 hx with rfl | hx
            · exact hn
            · exact h4 x hx
          · rintro ⟨es', pre, n', post, h1, h2, h3, h4⟩
            cases h1
            cases pre with
            | nil => cases h2; exact absurd ⟨v, h3⟩ hn
            | cons x pre =>
              simp only [List.cons_append, List.cons.injEq] at h2
              exact ⟨es, pre, n', post, rfl, h2.2, h3, fun y hy => h4 y (by simp [hy])⟩
    show (if es.length = 0 then none else lookupInMap.go es names) = some v ↔ _
    split
    · rename_i h
      have : es = [] := List.length_eq_zero_iff.1 h
      subst this
      constructor
      · intro h; cases h
      · rintro ⟨_, _, _, _, h1, _, h3, _⟩
        cases h1; cases h3
    · exact loop names

theorem lookupInMap_none {m : Option Entries} (hu : ∀ es, m = some es → UniqueKeys es) (names : List Str) :
    lookupInMap names m = none ↔ NoneIn names m := by
  constructor
  · intro h es hm n hn ⟨v, hv⟩
    subst hm
    have : ∃ pre n post, names = pre ++ n :: post ∧ Has es n ∧ ∀ x ∈ pre, ¬Has es x := by
      clear h
      induction names with
      | nil => cases hn
      | cons x ns ih =>
        by_cases hx : Has es x
        · exact ⟨[], x, ns, rfl, hx, by simp⟩
        · rcases List.mem_cons.1 hn with rfl | hn
          · exact absurd ⟨v, hv⟩ hx
          · obtain ⟨pre, y, post, h1, h2, h3⟩ := ih hn
            refine ⟨x :: pre, y, post, by rw [h1]; rfl, h2, ?_⟩
            intro z hz
            rcases List.mem_cons.1 hz with rfl | hz
            · exact hx
            · exact h3 z hz
    obtain ⟨pre, y, post, h1, ⟨w, h2⟩, h3⟩ := this
    rw [(lookupInMap_some hu names w).2 ⟨es, pre, y, post, rfl, h1, h2, h3⟩] at h
    cases h
  · intro h
    cases hl : lookupInMap names m with
    | none => rfl
    | some v =>
      obtain ⟨es, pre, n, post, h1, h2, h3, _⟩ := (lookupInMap_some hu names v).1 hl
      exact absurd ⟨v, h3⟩ (h es h1 n (by rw [h2]; simp))

theorem lookupNames_iff (rec : Rec) (opts : Entries) (names : List Str) : ∀ s r t,
    lookupNames rec opts names s = some (r, t) ↔ FirstAnswer (lookupName rec opts) names s r t := by
  induction names with
  | nil =>
    intro s r t
    constructor
    · intro h; cases h; exact .none
    · intro h; cases h; rfl
  | cons n ns ih =>
    intro s r t
    unfold lookupNames
    constructor
    · intro h
      cases ha : lookupName rec opts n s with
      | none => rw [bind_none ha] at h; cases h
      | some q =>
        obtain ⟨x, u⟩ := q
        cases x with
        | panic e => rw [bind_panic ha] at h; cases h; exact .fail ha
        | ok o =>
          rw [bind_ok ha] at h
          cases o with
          | some v => cases h; exact .hit ha
          | none => exact .miss ha ((ih u r t).1 h)
    · intro h
      cases h with
      | hit ha => rw [bind_ok ha]; rfl
      | fail ha => rw [bind_panic ha]
      | miss ha h => rw [bind_ok ha]; exact (ih _ r t).2 h

theorem ensureType_iff (T : Types) (t : Option Nat) (v : Value) (r : Res Value) :
    ensureType T t v = r ↔ OfType T.isInstance (fun t v => T.env.newValue t v none) t v r := by
  unfold ensureType
  cases t with
  | none =>
    simp only
    constructor
    · rintro rfl; exact .any
    · intro h; cases h; rfl
  | some t =>
    simp only
    constructor
    · intro h
      split at h
      · rename_i hi; subst h; exact .is hi
      · rename_i hi; exact .made (by simpa using hi) h
    · intro h
      cases h with
      | is hi => rw [if_pos hi]
      | made hi h => rw [if_neg (by simp [hi]), h]

/-- What `lookup2` makes of a source. -/
def Spec.deliver (T : Types) (t : Option Nat) : Res (Option Value) → Res (Option Value)
  | .panic e => .panic e
  | .ok none => .ok none
  | .ok (some v) => match ensureType T t v with
    | .ok w => .ok (some w)
    | .panic e => .panic e

theorem deliver_iff (T : Types) (t : Option Nat) (r r' : Res (Option Value)) :
    deliver T t r = r' ↔ Delivered T.isInstance (fun t v => T.env.newValue t v none) t r r' := by
  cases r with
  | panic e => exact ⟨fun h => h ▸ .panic, fun h => by cases h; rfl⟩
  | ok o =>
    cases o with
    | none => exact ⟨fun h => h ▸ .nothing, fun h => by cases h; rfl⟩
    | some v =>
      simp only [deliver]
      constructor
      · intro h
        cases he : ensureType T t v with
        | ok w => rw [he] at h; subst h; exact .value ((ensureType_iff T t v _).1 he)
        | panic e => rw [he] at h; subst h; exact .failed ((ensureType_iff T t v _).1 he)
      · intro h
        cases h with
        | value h => rw [(ensureType_iff T t v _).2 h]
        | failed h => rw [(ensureType_iff T t v _).2 h]

theorem typed_deliver (T : Types) (t : Option Nat) (v : Value) (s : St) : typed T t v s = some (deliver T t (.ok (some v)), s) := by
  unfold typed
  simp only [deliver]
  cases ensureType T t v with
  | ok w => rfl
  | panic e => rfl

/-- C24: the outcome of `Lookup2` is the value of the source of the highest rank that has one, delivered as the requested
type; and the state is that of asking for just what was needed. -/
theorem C24_ranked (T : Types) (rec : Rec) (names : List Str) (t : Option Nat) (dv : Option Value) (override defaults : Option Entries)
    (opts : Entries) (df : Option (M Value)) (ho : ∀ es, override = some es → UniqueKeys es)
    (hd : ∀ es, defaults = some es → UniqueKeys es) (s u : St) (r' : Res (Option Value)) :
    lookup2 T rec names t dv override defaults opts df s = some (r', u) ↔
      ∃ r, Ranked (lookupName rec opts) names override defaults dv df s r u ∧
        Delivered T.isInstance (fun t v => T.env.newValue t v none) t r r' := by
  have back : ∀ r u, Ranked (lookupName rec opts) names override defaults dv df s r u →
      lookup2 T rec names t dv override defaults opts df s = some (deliver T t r, u) := by
    intro r u h
    unfold lookup2
    cases h with
    | override h => rw [(lookupInMap_some ho _ _).2 h]; exact typed_deliver T t _ s
    | data h1 h2 =>
      rw [(lookupInMap_none ho _).2 h1]
      simp only
      rw [bind_ok ((lookupNames_iff rec opts names _ _ _).2 h2)]
      exact typed_deliver T t _ _
    | failed h1 h2 =>
      rw [(lookupInMap_none ho _).2 h1]
      simp only
      rw [bind_panic ((lookupNames_iff rec opts names _ _ _).2 h2)]
      rfl
    | hash h1 h2 h3 =>
      rw [(lookupInMap_none ho _).2 h1]
      simp only
      rw [bind_ok ((lookupNames_iff rec opts names _ _ _).2 h2)]
      simp only
      rw [(lookupInMap_some hd _ _).2 h3]
      exact typed_deliver T t _ _
    | value h1 h2 h3 h4 =>
      rw [(lookupInMap_none ho _).2 h1]
      simp only
      rw [bind_ok ((lookupNames_iff rec opts names _ _ _).2 h2)]
      simp only
      rw [(lookupInMap_none hd _).2 h3, h4]
      exact typed_deliver T t _ _
    | @func _ f r _ h1 h2 h3 h4 h5 h6 =>
      rw [(lookupInMap_none ho _).2 h1]
      simp only
      rw [bind_ok ((lookupNames_iff rec opts names _ _ _).2 h2)]
      simp only
      rw [(lookupInMap_none hd _).2 h3, h4, h5]
      simp only
      cases r with
      | ok v => rw [bind_ok h6]; exact typed_deliver T t _ _
      | panic e => rw [bind_panic h6]; rfl
    | nothing h1 h2 h3 h4 h5 =>
      rw [(lookupInMap_none ho _).2 h1]
      simp only
      rw [bind_ok ((lookupNames_iff rec opts names _ _ _).2 h2)]
      simp only
      rw [(lookupInMap_none hd _).2 h3, h4, h5]
      rfl
  constructor
  · intro h
    have ex : ∃ r v, Ranked (lookupName rec opts) names override defaults dv df s r v := by
      cases h1 : lookupInMap names override with
      | some v => exact ⟨_, _, .override ((lookupInMap_some ho _ _).1 h1)⟩
      | none =>
        have n1 := (lookupInMap_none ho _).1 h1
        unfold lookup2 at h
        rw [h1] at h
        simp only at h
        cases h2 : lookupNames rec opts names s with
        | none => rw [bind_none h2] at h; cases h
        | some q =>
          obtain ⟨x, v⟩ := q
          have a := (lookupNames_iff rec opts names _ _ _).1 h2
          cases x with
          | panic e => exact ⟨_, _, .failed n1 a⟩
          | ok o =>
            cases o with
            | some w => exact ⟨_, _, .data n1 a⟩
            | none =>
              cases h3 : lookupInMap names defaults with
              | some w => exact ⟨_, _, .hash n1 a ((lookupInMap_some hd _ _).1 h3)⟩
              | none =>
                have n3 := (lookupInMap_none hd _).1 h3
                cases h4 : dv with
                | some w => exact ⟨_, _, .value n1 a n3 rfl⟩
                | none =>
                  cases h5 : df with
                  | none => exact ⟨_, _, .nothing n1 a n3 rfl rfl⟩
                  | some f =>
                    rw [bind_ok h2] at h
                    simp only [h3, h4, h5] at h
                    cases h6 : f v with
                    | none => rw [bind_none h6] at h; cases h
                    | some q => exact ⟨_, _, .func n1 a n3 rfl rfl h6⟩
    obtain ⟨r, v, hr⟩ := ex
    rw [back r v hr] at h
    cases h
    exact ⟨r, hr, (deliver_iff T t r _).1 rfl⟩
  · rintro ⟨r, h1, h2⟩
    rw [back r u h1, (deliver_iff T t r r').2 h2]

/-- C26: what `Lookup2` returns is an instance of the requested type, or was converted to it. -/
theorem C26_enforced (T : Types) (rec : Rec) (names : List Str) (t : Nat) (dv : Option Value) (override defaults : Option Entries)
    (opts : Entries) (df : Option (M Value)) (ho : ∀ es, override = some es → UniqueKeys es)
    (hd : ∀ es, defaults = some es → UniqueKeys es) (s u : St) (w : Value)
    (h : lookup2 T rec names (some t) dv override defaults opts df s = some (.ok (some w), u)) :
    ∃ v, Ranked (lookupName rec opts) names override defaults dv df s (.ok (some v)) u ∧
      ((v = w ∧ T.isInstance t w = true) ∨ (T.isInstance t v = false ∧ T.env.newValue t v none = .ok w)) := by
  obtain ⟨r, h1, h2⟩ := (C24_ranked T rec names (some t) dv override defaults opts df ho hd s u _).1 h
  cases h2 with
  | @value v _ h3 =>
    refine ⟨v, h1, ?_⟩
    cases h3 with
    | is hi => exact .inl ⟨rfl, hi⟩
    | made hi hn => exact .inr ⟨hi, hn⟩

/-! ### All names -/

theorem lookupForAll_iff (rec : Rec) (override defaults : Option Entries) (opts : Entries) (n : Str)
    (ho : ∀ es, override = some es → UniqueKeys es) (hd : ∀ es, defaults = some es → UniqueKeys es) (s u : St) (r : Res (Option Value)) :
    lookupForAll rec override defaults opts n s = some (r, u) ↔
      Ranked (lookupName rec opts) [n] override defaults none none s r u := by
  constructor
  · intro h
    unfold lookupForAll at h
    cases h1 : lookupInMap [n] override with
    | some v => rw [h1] at h; cases h; exact .override ((lookupInMap_some ho _ _).1 h1)
    | none =>
      have n1 := (lookupInMap_none ho _).1 h1
      rw [h1] at h
      simp only at h
      cases h2 : lookupName rec opts n s with
      | none => rw [bind_none h2] at h; cases h
      | some q =>
        obtain ⟨x, v⟩ := q
        cases x with
        | panic e => rw [bind_panic h2] at h; cases h; exact .failed n1 (.fail h2)
        | ok o =>
          rw [bind_ok h2] at h
          cases o with
          | some w => cases h; exact .data n1 (.hit h2)
          | none =>
            simp only at h
            cases h3 : lookupInMap [n] defaults with
            | some w => rw [h3] at h; cases h; exact .hash n1 (.miss h2 .none) ((lookupInMap_some hd _ _).1 h3)
            | none => rw [h3] at h; cases h; exact .nothing n1 (.miss h2 .none) ((lookupInMap_none hd _).1 h3) rfl rfl
  · intro h
    unfold lookupForAll
    cases h with
    | override h => rw [(lookupInMap_some ho _ _).2 h]; rfl
    | data h1 h2 =>
      rw [(lookupInMap_none ho _).2 h1]
      simp only
      cases h2 with
      | hit h2 => rw [bind_ok h2]; rfl
      | miss h2 h3 => cases h3
    | failed h1 h2 =>
      rw [(lookupInMap_none ho _).2 h1]
      simp only
      cases h2 with
      | fail h2 => rw [bind_panic h2]
      | miss h2 h3 => cases h3
    | hash h1 h2 h3 =>
      rw [(lookupInMap_none ho _).2 h1]
      simp only
      cases h2 with
      | miss h2 h4 => cases h4; rw [bind_ok h2]; simp only; rw [(lookupInMap_some hd _ _).2 h3]; rfl
    | value h1 h2 h3 h4 => cases h4
    | func h1 h2 h3 h4 h5 h6 => cases h5
    | nothing h1 h2 h3 h4 h5 =>
      rw [(lookupInMap_none ho _).2 h1]
      simp only
      cases h2 with
      | miss h2 h4 => cases h4; rw [bind_ok h2]; simp only; rw [(lookupInMap_none hd _).2 h3]; rfl

theorem ensureTypeFromMap_iff (T : Types) (tm : Option (Str → Option Nat)) (n : Str) (v w : Value) :
    ensureTypeFromMap T tm n v = .ok w ↔ (tm = none ∨ (memberType tm n).isSome) ∧
      OfType T.isInstance (fun t v => T.env.newValue t v none) (memberType tm n) v (.ok w) := by
  unfold ensureTypeFromMap memberType
  cases tm with
  | none =>
    simp only [Option.bind_none, true_or, true_and, Res.ok.injEq]
    constructor
    · rintro rfl; exact .any
    · intro h; cases h; rfl
  | some f =>
    simp only [Option.bind_some, reduceCtorEq, false_or]
    cases hf : f n with
    | none => simp
    | some e => simp only [Option.isSome_some, true_and]; exact ensureType_iff T (some e) v (.ok w)

/-- The hash that the answers make: the last one for each name. -/
def Spec.collect : List (Str × Option Value) → Entries → Entries
  | [], es => es
  | (n, some v) :: got, es => collect got (Entries.put es (.str n) v)
  | (_, none) :: got, es => collect got es

theorem lookupAllLoop_iff (T : Types) (rec : Rec) (tm : Option (Str → Option Nat)) (override defaults : Option Entries) (opts : Entries)
    (ho : ∀ es, override = some es → UniqueKeys es) (hd : ∀ es, defaults = some es → UniqueKeys es) (names : List Str) :
    ∀ (es es' : Entries) (s t : St), lookupAllLoop T rec tm override defaults opts names es s = some (.ok es', t) ↔
      ∃ got, EachOf (lookupName rec opts) T.isInstance (fun t v => T.env.newValue t v none) tm override defaults names s got t ∧
        es' = collect got es := by
  induction names with
  | nil =>
    intro es es' s t
    constructor
    · intro h; cases h; exact ⟨[], .nil, rfl⟩
    · rintro ⟨got, h1, h2⟩; cases h1; subst h2; rfl
  | cons n ns ih =>
    intro es es' s t
    unfold lookupAllLoop
    constructor
    · intro h
      cases h1 : lookupForAll rec override defaults opts n s with
      | none => rw [bind_none h1] at h; cases h
      | some q =>
        obtain ⟨x, u⟩ := q
        cases x with
        | panic e => rw [bind_panic h1] at h; cases h
        | ok o =>
          rw [bind_ok h1] at h
          have hr := (lookupForAll_iff rec override defaults opts n ho hd _ _ _).1 h1
          cases o with
          | none =>
            obtain ⟨got, h2, h3⟩ := (ih es es' u t).1 h
            exact ⟨_, .missing hr h2, h3⟩
          | some v =>
            simp only at h
            cases h2 : ensureTypeFromMap T tm n v with
            | panic e => rw [h2, M.lift_panic_bind] at h; cases h
            | ok w =>
              rw [h2, M.lift_ok_bind] at h
              obtain ⟨got, h3, h4⟩ := (ih _ es' u t).1 h
              obtain ⟨h5, h6⟩ := (ensureTypeFromMap_iff T tm n v w).1 h2
              exact ⟨_, .found hr h5 h6 h3, h4⟩
    · rintro ⟨got, h1, h2⟩
      cases h1 with
      | missing hr h3 =>
        rw [bind_ok ((lookupForAll_iff rec override defaults opts n ho hd _ _ _).2 hr)]
        exact (ih es es' _ t).2 ⟨_, h3, h2⟩
      | found hr h5 h6 h3 =>
        rw [bind_ok ((lookupForAll_iff rec override defaults opts n ho hd _ _ _).2 hr)]
        simp only
        rw [(ensureTypeFromMap_iff T tm n _ _).2 ⟨h5, h6⟩, M.lift_ok_bind]
        exact (ih _ es' _ t).2 ⟨_, h3, h2⟩

/-- Entries of a hash with keys that are strings, none of them twice. -/
def Spec.StrNamed (es : Entries) : Prop := UniqueKeys es ∧ ∀ e ∈ es, ∃ n, e.1 = .str n

theorem named_put {es : Entries} (h : StrNamed es) (n : Str) (v : Value) : StrNamed (Entries.put es (.str n) v) ∧
    ∀ m w, (Value.str m, w) ∈ Entries.put es (.str n) v ↔ if m = n then w = v else (Value.str m, w) ∈ es := by
  induction es with
  | nil =>
    refine ⟨⟨by simp [Entries.put, UniqueKeys], fun e he => ?_⟩, fun m w => ?_⟩
    · simp only [Entries.put, List.mem_singleton] at he; subst he; exact ⟨n, rfl⟩
    · simp only [Entries.put, List.mem_singleton, Prod.mk.injEq, Value.str.injEq, List.not_mem_nil]
      split
      · rename_i h; simp [h]
      · rename_i h; simp [h]
  | cons e es ih =>
    obtain ⟨hu, hs⟩ := h
    obtain ⟨⟨k, x⟩, rfl⟩ : ∃ q : Value × Value, e = q := ⟨e, rfl⟩
    obtain ⟨a, ha⟩ := hs (k, x) (by simp)
    simp only at ha
    subst ha
    obtain ⟨hp, hu'⟩ := List.pairwise_cons.1 hu
    obtain ⟨⟨ihu, ihs⟩, ihm⟩ := ih ⟨hu', fun e he => hs e (by simp [he])⟩
    have na : ∀ w, (Value.str a, w) ∉ es := fun w hw => by have := hp _ hw; simp at this
    unfold Entries.put
    by_cases hn : n = a
    · subst hn
      simp only [equals_str, beq_self_eq_true, if_true]
      refine ⟨⟨List.pairwise_cons.2 ⟨hp, hu'⟩, fun e he => ?_⟩, fun m w => ?_⟩
      · rcases List.mem_cons.1 he with rfl | he
        · exact ⟨n, rfl⟩
        · exact hs e (by simp [he])
      · simp only [List.mem_cons, Prod.mk.injEq, Value.str.injEq]
        split
        · rename_i h; subst h; simp [na]
        · rename_i h; simp [h]
    · rw [if_neg (by simp [hn])]
      refine ⟨⟨List.pairwise_cons.2 ⟨fun b hb => ?_, ihu⟩, fun e he => ?_⟩, fun m w => ?_⟩
      · obtain ⟨c, hc⟩ := ihs b hb
        obtain ⟨b1, b2⟩ := b
        simp only at hc
        subst hc
        have := (ihm c b2).1 hb
        simp only [equals_str, beq_eq_false_iff_ne, ne_eq]
        rintro rfl
        rw [if_neg (by rintro rfl; exact hn rfl)] at this
        exact na _ this
      · rcases List.mem_cons.1 he with rfl | he
        · exact ⟨a, rfl⟩
        · exact ihs e he
      · simp only [List.mem_cons, Prod.mk.injEq, Value.str.injEq, ihm]
        by_cases hm : m = n
        · subst hm; simp [hn]
        · simp [hm]

theorem collect_spec (got : List (Str × Option Value)) : ∀ es, StrNamed es → StrNamed (collect got es) ∧
    ∀ n v, (Value.str n, v) ∈ collect got es ↔
      (∃ pre post, got = pre ++ (n, some v) :: post ∧ ∀ w, (n, some w) ∉ post) ∨
      ((∀ w, (n, some w) ∉ got) ∧ (Value.str n, v) ∈ es) := by
  induction got with
  | nil => intro es h; exact ⟨h, fun n v => by simp [collect]⟩
  | cons g got ih =>
    intro es h
    obtain ⟨m, o⟩ := g
    cases o with
    | none =>
      obtain ⟨h1, h2⟩ := ih es h
      refine ⟨h1, fun n v => ?_⟩
      show (Value.str n, v) ∈ collect got es ↔ _
      rw [h2]
      constructor
      · rintro (⟨pre, post, rfl, h3⟩ | ⟨h3, h4⟩)
        · exact .inl ⟨(m, none) :: pre, post, rfl, h3⟩
        · exact .inr ⟨by simpa using h3, h4⟩
      · rintro (⟨pre, post, h3, h4⟩ | ⟨h3, h4⟩)
        · cases pre with
          | nil => simp at h3
          | cons x pre =>
            simp only [List.cons_append, List.cons.injEq] at h3
            exact .inl ⟨pre, post, h3.2, h4⟩
        · exact .inr ⟨by simpa using h3, h4⟩
    | some x =>
      obtain ⟨hn, hm⟩ := named_put h m x
      obtain ⟨h1, h2⟩ := ih _ hn
      refine ⟨h1, fun n v => ?_⟩
      show (Value.str n, v) ∈ collect got (Entries.put es (.str m) x) ↔ _
      rw [h2, hm]
      constructor
      · rintro (⟨pre, post, rfl, h3⟩ | ⟨h3, h4⟩)
        · exact .inl ⟨(m, some x) :: pre, post, rfl, h3⟩
        · by_cases e : n = m
          · subst e
            rw [if_pos rfl] at h4
            subst h4
            exact .inl ⟨[], got, rfl, h3⟩
          · rw [if_neg e] at h4
            exact .inr ⟨by simpa [e] using h3, h4⟩
      · rintro (⟨pre, post, h3, h4⟩ | ⟨h3, h4⟩)
        · cases pre with
          | nil =>
            simp only [List.nil_append, List.cons.injEq, Prod.mk.injEq, Option.some.injEq] at h3
            obtain ⟨⟨rfl, rfl⟩, rfl⟩ := h3
            exact .inr ⟨h4, by simp⟩
          | cons y pre =>
            simp only [List.cons_append, List.cons.injEq] at h3
            exact .inl ⟨pre, post, h3.2, h4⟩
        · have e : n ≠ m := by rintro rfl; exact h3 x (by simp)
          exact .inr ⟨fun w hw => h3 w (by simp [hw]), by rw [if_neg e]; exact h4⟩

/-- C25: `LookupAll` returns iff each name can be asked for on its own, in turn; the hash it returns has just the names that
were found, with the value that was found (last). -/
theorem C25_each (T : Types) (rec : Rec) (names : List Str) (tm : Option (Str → Option Nat)) (override defaults : Option Entries)
    (opts : Entries) (ho : ∀ es, override = some es → UniqueKeys es) (hd : ∀ es, defaults = some es → UniqueKeys es)
    (s t : St) (v : Value) :
    lookupAll T rec names tm override defaults opts s = some (.ok v, t) →
      ∃ got es, EachOf (lookupName rec opts) T.isInstance (fun t v => T.env.newValue t v none) tm override defaults names s got t ∧
        v = .map es ∧ StrNamed es ∧
        ∀ n w, (Value.str n, w) ∈ es ↔ ∃ pre post, got = pre ++ (n, some w) :: post ∧ ∀ w', (n, some w') ∉ post := by
  intro h
  unfold lookupAll at h
  cases h1 : lookupAllLoop T rec tm override defaults opts names [] s with
  | none => rw [bind_none h1] at h; cases h
  | some q =>
    obtain ⟨x, u⟩ := q
    cases x with
    | panic e => rw [bind_panic h1] at h; cases h
    | ok es =>
      rw [bind_ok h1] at h
      cases h
      obtain ⟨got, h2, rfl⟩ := (lookupAllLoop_iff T rec tm override defaults opts ho hd names [] es s _).1 h1
      obtain ⟨h3, h4⟩ := collect_spec got [] ⟨by simp [UniqueKeys], by simp⟩
      exact ⟨got, _, h2, rfl, h3, fun n w => by rw [h4]; simp⟩

/-- C25: and it returns if each name can be asked for. -/
theorem C25_returns (T : Types) (rec : Rec) (names : List Str) (tm : Option (Str → Option Nat)) (override defaults : Option Entries)
    (opts : Entries) (ho : ∀ es, override = some es → UniqueKeys es) (hd : ∀ es, defaults = some es → UniqueKeys es)
    (s t : St) (got : List (Str × Option Value))
    (h : EachOf (lookupName rec opts) T.isInstance (fun t v => T.env.newValue t v none) tm override defaults names s got t) :
    ∃ v, lookupAll T rec names tm override defaults opts s = some (.ok v, t) := by
  unfold lookupAll
  rw [bind_ok ((lookupAllLoop_iff T rec tm override defaults opts ho hd names [] _ s t).2 ⟨got, h, rfl⟩)]
  exact ⟨_, rfl⟩

/-- C25: when the hierarchy's answer for each name does not depend on what was asked before, a name is in the hash iff it is
requested and found in override, data or defaults, in that order of preference. -/
theorem C25_independent (T : Types) (rec : Rec) (names : List Str) (override defaults : Option Entries) (opts : Entries)
    (ho : ∀ es, override = some es → UniqueKeys es) (hd : ∀ es, defaults = some es → UniqueKeys es)
    (I : St → Prop) (data : Str → Option Value) (hdata : ∀ n ∈ names, Does I (lookupName rec opts n) (.ok (data n))) (s : St) (hs : I s) :
    ∃ es t, lookupAll T rec names none override defaults opts s = some (.ok (.map es), t) ∧ StrNamed es ∧
      ∀ n v, (Value.str n, v) ∈ es ↔ n ∈ names ∧ preferred override defaults (data n) n v := by
  have key : ∀ (ns : List Str), (∀ n ∈ ns, Does I (lookupName rec opts n) (.ok (data n))) → ∀ s, I s → ∃ got t, I t ∧
      EachOf (lookupName rec opts) T.isInstance (fun t v => T.env.newValue t v none) none override defaults ns s got t ∧
      ∀ n v, ((n, some v) ∈ got ↔ n ∈ ns ∧ preferred override defaults (data n) n v) := by
    intro ns
    induction ns with
    | nil => intro _ s hs; exact ⟨[], s, hs, .nil, by simp⟩
    | cons n ns ih =>
      intro hdata s hs
      -- the answer for one name
      have one : ∃ o t, I t ∧ Ranked (lookupName rec opts) [n] override defaults none none s (.ok o) t ∧
          ∀ v, o = some v ↔ preferred override defaults (data n) n v := by
        unfold preferred
        simp only [← lookupInMap_some ho, ← lookupInMap_none ho, ← lookupInMap_some hd]
        cases h1 : lookupInMap [n] override with
        | some w => exact ⟨some w, s, hs, .override ((lookupInMap_some ho _ _).1 h1), by simp⟩
        | none =>
          have n1 := (lookupInMap_none ho _).1 h1
          obtain ⟨t, ht, hi⟩ := hdata n (by simp) s hs
          cases h2 : data n with
          | some w => rw [h2] at ht; exact ⟨some w, t, hi, .data n1 (.hit ht), by simp⟩
          | none =>
            rw [h2] at ht
            cases h3 : lookupInMap [n] defaults with
            | some w => exact ⟨some w, t, hi, .hash n1 (.miss ht .none) ((lookupInMap_some hd _ _).1 h3), by simp⟩
            | none => exact ⟨none, t, hi, .nothing n1 (.miss ht .none) ((lookupInMap_none hd _).1 h3) rfl rfl, by simp⟩
      obtain ⟨o, t, hi, hr, hv⟩ := one
      obtain ⟨got, t', hi', he, hg⟩ := ih (fun m hm => hdata m (by simp [hm])) t hi
      cases o with
      | none =>
        refine ⟨(n, none) :: got, t', hi', .missing hr he, fun m w => ?_⟩
        simp only [List.mem_cons, Prod.mk.injEq, reduceCtorEq, and_false, false_or, hg]
        constructor
        · exact fun h => ⟨.inr h.1, h.2⟩
        · rintro ⟨rfl | h1, h2⟩
          · exact absurd ((hv w).2 h2) (by simp)
          · exact ⟨h1, h2⟩
      | some x =>
        refine ⟨(n, some x) :: got, t', hi', .found hr (.inl rfl) .any he, fun m w => ?_⟩
        simp only [List.mem_cons, Prod.mk.injEq, Option.some.injEq, hg]
        constructor
        · rintro (⟨rfl, rfl⟩ | h)
          · exact ⟨.inl rfl, (hv w).1 rfl⟩
          · exact ⟨.inr h.1, h.2⟩
        · rintro ⟨rfl | h1, h2⟩
          · have := (hv w).2 h2
            cases this
            exact .inl ⟨rfl, rfl⟩
          · exact .inr ⟨h1, h2⟩
  obtain ⟨got, t, _, he, hg⟩ := key names hdata s hs
  obtain ⟨v, hv⟩ := C25_returns T rec names none override defaults opts ho hd s t got he
  have := C25_each T rec names none override defaults opts ho hd s t v hv
  unfold lookupAll at hv
  rw [bind_ok ((lookupAllLoop_iff T rec none override defaults opts ho hd names [] _ s t).2 ⟨got, he, rfl⟩)] at hv
  cases hv
  obtain ⟨h3, h4⟩ := collect_spec got [] ⟨by simp [UniqueKeys], by simp⟩
  refine ⟨_, t, by
    unfold lookupAll
    rw [bind_ok ((lookupAllLoop_iff T rec none override defaults opts ho hd names [] _ s t).2 ⟨got, he, rfl⟩)]
    rfl, h3, fun n v => ?_⟩
  rw [h4, ← hg]
  have uniq : ∀ w w', (n, some w) ∈ got → (n, some w') ∈ got → w = w' := by
    intro w w' h h'
    have a := ((hg n w).1 h).2
    have b := ((hg n w').1 h').2
    unfold preferred at a b
    simp only [← lookupInMap_some ho, ← lookupInMap_none ho, ← lookupInMap_some hd] at a b
    rcases a with a | ⟨a1, a2⟩ | ⟨a1, a2, a3⟩ <;> rcases b with b | ⟨b1, b2⟩ | ⟨b1, b2, b3⟩ <;> simp_all
  constructor
  · rintro (⟨pre, post, h, _⟩ | ⟨_, h⟩)
    · rw [h]; simp
    · cases h
  · intro hm
    left
    -- the last occurrence
    clear h3 h4 this he hg
    induction got with
    | nil => cases hm
    | cons g got ih =>
      by_cases hl : ∃ w, (n, some w) ∈ got
      · obtain ⟨w, hw⟩ := hl
        have : w = v := uniq w v (by simp [hw]) hm
        subst this
        obtain ⟨pre, post, h1, h2⟩ := ih (fun a b ha hb => uniq a b (by simp [ha]) (by simp [hb])) hw
        exact ⟨g :: pre, post, by rw [h1]; rfl, h2⟩
      · rcases List.mem_cons.1 hm with rfl | hm
        · exact ⟨[], got, rfl, fun w hw => hl ⟨w, hw⟩⟩
        · exact absurd ⟨v, hm⟩ hl

/-- C26: the values in the hash that `LookupAll` returns are of the types that the struct type has for their names, or were
converted to them. -/
theorem C26_all (T : Types) (rec : Rec) (names : List Str) (f : Str → Option Nat) (override defaults : Option Entries)
    (opts : Entries) (ho : ∀ es, override = some es → UniqueKeys es) (hd : ∀ es, defaults = some es → UniqueKeys es)
    (s t : St) (es : Entries) (h : lookupAll T rec names (some f) override defaults opts s = some (.ok (.map es), t))
    (n : Str) (w : Value) (hm : (Value.str n, w) ∈ es) :
    ∃ ty, f n = some ty ∧ (T.isInstance ty w = true ∨ ∃ v, T.isInstance ty v = false ∧ T.env.newValue ty v none = .ok w) := by
  obtain ⟨got, es', h1, h2, _, h4⟩ := C25_each T rec names (some f) override defaults opts ho hd s t _ h
  cases h2
  obtain ⟨pre, post, hg, _⟩ := (h4 n w).1 hm
  have hin : (n, some w) ∈ got := by rw [hg]; simp
  clear h hm h4 hg
  induction h1 with
  | nil => cases hin
  | missing _ _ ih =>
    rcases List.mem_cons.1 hin with hin | hin
    · cases hin
    · exact ih hin
  | found _ h5 h6 _ ih =>
    rcases List.mem_cons.1 hin with hin | hin
    · cases hin
      simp only [memberType, Option.bind_some, reduceCtorEq, false_or] at h5 h6
      cases hf : f n with
      | none => rw [hf] at h5; cases h5
      | some ty =>
        rw [hf] at h6
        refine ⟨ty, rfl, ?_⟩
        cases h6 with
        | is hi => exact .inl hi
        | made hi hn => exact .inr ⟨_, hi, hn⟩
    · exact ih hin

/-! Concrete cases: `Integer` is type 1; a string converts to its length. -/

/-- Integers are of type 1. -/
def apiTypes : Types where
  env := { two [(s "a", .int 1), (s "b", s "two")] [(s "c", s "three")] with
    newValue := fun t v _ => match t, v with
      | 1, .str x => .ok (.int x.length)
      | _, _ => .panic (.other 0) }
  isInstance := fun t v => match t, v with
    | 1, .int _ => true
    | _, _ => false

/-- The answer of `Lookup2`. -/
def apiAsk (names : List String) (t : Option Nat) (dv : Option Value) (o d : Option Entries) : Option (Res (Option Value)) :=
  (lookup2 apiTypes (eval apiTypes.env 6) (names.map String.toList) t dv o d [] none (st [])).map Prod.fst

/-- The answer of `LookupAll`. -/
def apiAskAll (names : List String) (t : Option (Str → Option Nat)) (o d : Option Entries) : Option (Res Value) :=
  (lookupAll apiTypes (eval apiTypes.env 6) (names.map String.toList) t o d [] (st [])).map Prod.fst

example : apiAsk ["x", "a", "b"] none none (some [(s "b", .int 7)]) none = some (.ok (some (.int 7))) ∧
    apiAsk ["x", "b", "a"] none none (some [(s "y", .int 7)]) none = some (.ok (some (s "two"))) ∧
    apiAsk ["x", "b", "a"] (some 1) none none none = some (.ok (some (.int 3))) ∧
    apiAsk ["x", "y"] (some 1) (some (.int 9)) none (some [(s "y", .int 8)]) = some (.ok (some (.int 8))) ∧
    apiAsk ["x", "y"] (some 1) (some (.int 9)) none none = some (.ok (some (.int 9))) ∧
    apiAsk ["x", "y"] (some 1) (some .null) none none = some (.panic (.other 0)) ∧
    apiAsk ["x", "y"] none none none none = some (.ok none) := by decide +kernel

example : apiAskAll ["a", "x", "c", "y"] none (some [(s "c", .int 5)]) (some [(s "a", .int 6), (s "y", .int 7)]) =
      some (.ok (.map [(s "a", .int 1), (s "c", .int 5), (s "y", .int 7)])) ∧
    apiAskAll ["b"] (some fun n => if n = "b".toList then some 1 else none) none none = some (.ok (.map [(s "b", .int 3)])) ∧
    apiAskAll ["b", "a"] (some fun n => if n = "b".toList then some 1 else none) none none =
      some (.panic (.notInTypeMap "a".toList)) := by decide +kernel

end Hiera
