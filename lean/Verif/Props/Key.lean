/-
  Properties C01–C06: hierarchical keys (`api/key.go`).
-/
import Verif.Lemmas.Key

set_option autoImplicit false

namespace Hiera
open Spec Value

/-! ### The grammar: every string either is the text of a key, and then reads as the grammar says, or it has an
unterminated quote and is rejected. -/

/-- `NewKey` computes the reading that the grammar gives to the text of a key. -/
theorem C03_grammar (segs : List Segment) (hok : ∀ seg ∈ segs, ∀ p ∈ seg, p.Ok) (r : Res (List Part))
    (h : ReadsKey (keyText segs) true segs r) :
    newKey (keyText segs) = r.bind fun ps => .ok ⟨keyText segs, ps⟩ := by
  have := parseUnquoted_readsKey (parts := []) hok h
  unfold newKey
  rw [this]
  cases r <;> simp [Res.bind]

/-- A text with an unterminated quote is rejected. -/
theorem C01_unterminated (segs : List Segment) (hne : segs ≠ []) (hok : ∀ seg ∈ segs, ∀ p ∈ seg, p.Ok) (q : Char) (t : Str)
    (hq : q = '\'' ∨ q = '"') (ht : q ∉ t) : ∃ e, newKey (keyText segs ++ q :: t) = .panic e := by
  obtain ⟨e, he, _⟩ := parseUnquoted_open (key := keyText segs ++ q :: t) hq ht segs [] hne hok
  exact ⟨e, by unfold newKey; rw [he]⟩

/-- C01: the three errors are the only ones, and a key that is accepted has a string root and parts that fit. -/
theorem C01_key (s : Str) :
    (∃ e, newKey s = .panic e ∧ (e = .firstIndex s ∨ e = .emptySegment s ∨ e = .unterminatedQuote s)) ∨
    (∃ k, newKey s = .ok k ∧ k.source = s ∧ (∃ root, k.rootR = .ok root ∧ k.parts.head? = some (.name root)) ∧
      ∀ i, Part.idx i ∈ k.parts → -2147483648 ≤ i ∧ i ≤ 2147483647) := by
  have den : ∀ (ps : List Part) (first : Bool), Denotable first ps →
      ∀ i, Part.idx i ∈ ps → -2147483648 ≤ i ∧ i ≤ 2147483647 := by
    intro ps
    induction ps with
    | nil => intro _ h; simp [Denotable] at h
    | cons p ps ih =>
      intro first h i hi
      cases ps with
      | nil => cases p <;> simp [Denotable] at h hi; subst hi; exact h.2
      | cons p' ps =>
        cases p with
        | idx j =>
          rcases List.mem_cons.1 hi with hj | hi
          · cases hj; exact h.2.1
          · exact ih _ h.2.2 i hi
        | name n =>
          rcases List.mem_cons.1 hi with hj | hi
          · cases hj
          · exact ih _ h.2.2 i hi
  rcases text_or_open s with ⟨segs, h1, h2, rfl⟩ | ⟨segs, q, t, h1, h2, h3, h4, rfl⟩
  · obtain ⟨r, hr⟩ := readsKey_total (keyText segs) segs true h1
    have hg := C03_grammar segs h2 r hr
    cases r with
    | panic e =>
      refine .inl ⟨e, hg, ?_⟩
      have err : ∀ (key : Str) (f l : Bool) (seg : Segment), Reads key f l seg (.panic e) →
          e = .firstIndex key ∨ e = .emptySegment key := by
        intro key f l seg h; cases h <;> simp
      have errK : ∀ (key : Str) (segs : List Segment) (f : Bool) (r : Res (List Part)), ReadsKey key f segs r →
          r = .panic e → e = .firstIndex key ∨ e = .emptySegment key := by
        intro key segs f r h
        induction h with
        | last => intro h; simp at h
        | lastErr h => intro h'; simp at h'; subst h'; exact err _ _ _ _ h
        | cons => intro h; simp at h
        | consErr h => intro h'; simp at h'; subst h'; exact err _ _ _ _ h
        | consErr' _ _ ih => exact ih
      rcases errK _ _ _ _ hr rfl with h | h <;> simp [h]
    | ok ps =>
      refine .inr ⟨⟨keyText segs, ps⟩, hg, rfl, ?_, ?_⟩
      · have hd := reads_denotable hr
        match ps, hd with
        | .name n :: _, _ => exact ⟨n, rfl, rfl⟩
        | [.idx i], h => simp [Denotable] at h
        | .idx i :: _ :: _, h => simp [Denotable] at h
      · exact den ps true (reads_denotable hr)
  · obtain ⟨e, he, hc⟩ := parseUnquoted_open (key := keyText segs ++ q :: t) h3 h4 segs [] h1 h2
    exact .inl ⟨e, by unfold newKey; rw [he], hc⟩

/-- C01: `Root` never fails on a parsed key. -/
theorem C01_root (s : Str) (k : Key) (h : newKey s = .ok k) : k.rootR = .ok k.root := by
  rcases C01_key s with ⟨e, he, _⟩ | ⟨k', hk, _, ⟨root, h1, _⟩, _⟩
  · rw [he] at h; cases h
  · rw [hk] at h; cases h
    unfold Key.rootR at h1; unfold Key.root Key.rootR
    split at h1 <;> simp_all

example : newKey "a.1.'x.y'".toList = .ok ⟨"a.1.'x.y'".toList, [.name "a".toList, .idx 1, .name "x.y".toList]⟩ := by decide
example : newKey "1.a".toList = .panic (.firstIndex "1.a".toList) := by decide
example : newKey "a..b".toList = .panic (.emptySegment "a..b".toList) := by decide
example : newKey "a.'b".toList = .panic (.unterminatedQuote "a.'b".toList) := by decide

/-! ### C02 -/

/-- Segments joined with dots. -/
def Spec.joinDots : List Str → Str
  | [] => []
  | [s] => s
  | s :: ss => s ++ '.' :: joinDots ss

/-- The part that an unquoted segment denotes. -/
inductive Spec.PlainPart (s : Str) : Part → Prop
  | index (i : Int) : IsInt32 s i → PlainPart s (.idx i)
  | name : (∀ i, ¬IsInt32 s i) → PlainPart s (.name s)

theorem joinDots_eq (segs : List Str) : joinDots segs = keyText (segs.map (·.map .plain)) := by
  have segPlain : ∀ s : Str, segText (s.map .plain) = s := by
    intro s
    induction s with
    | nil => rfl
    | cons c cs ih =>
      simp only [segText, List.map_cons, List.flatMap_cons] at ih ⊢
      rw [ih]; simp [Piece.text]
  induction segs with
  | nil => rfl
  | cons s ss ih =>
    cases ss with
    | nil => simp [joinDots, keyText, segPlain]
    | cons s' ss =>
      simp only [List.map_cons] at ih ⊢
      rw [keyTextCons, segPlain, ← ih, joinDots]
      simp

/-- A segment without quotes and dots. -/
def Spec.Unquoted (s : Str) : Prop := ∀ c ∈ s, c ≠ '\'' ∧ c ≠ '"' ∧ c ≠ '.'

theorem plain_ok {segs : List Str} (h : ∀ s ∈ segs, Unquoted s) :
    ∀ seg ∈ segs.map (·.map Piece.plain), ∀ p ∈ seg, p.Ok := by
  intro seg hs p hp
  obtain ⟨s, hs', rfl⟩ := List.mem_map.1 hs
  obtain ⟨c, hc, rfl⟩ := List.mem_map.1 hp
  exact h s hs' c hc

theorem plain_reads {key : Str} {s : Str} {first last : Bool} {p : Part} (hne : s ≠ [])
    (hf : first = true → ∀ i, ¬IsInt32 s i) (hp : PlainPart s p) :
    Reads key first last (s.map Piece.plain) (.ok p) := by
  cases hp with
  | index i hi =>
    cases first with
    | true => exact absurd hi (hf rfl i)
    | false => exact .index i (by simp [plainSeg_not_quoted]) (by rwa [plainSeg_content]) rfl
  | name h =>
    have := Reads.name (key := key) (first := first) (last := last) (seg := s.map .plain) (by simp [plainSeg_not_quoted])
      (by rwa [plainSeg_content]) (by rwa [plainSeg_content])
    rwa [plainSeg_content] at this

/-- C02: dot-joined segments read as those segments. -/
theorem C02_dots (segs : List Str) (hu : ∀ s ∈ segs, Unquoted s) (hne : segs ≠ []) (hs : ∀ s ∈ segs, s ≠ [])
    (hf : ∀ s, segs.head? = some s → ∀ i, ¬IsInt32 s i) :
    ∃ ps, newKey (joinDots segs) = .ok ⟨joinDots segs, ps⟩ ∧ List.Forall₂ PlainPart segs ps := by
  have part : ∀ s : Str, ∃ p, PlainPart s p := by
    intro s
    by_cases h : ∃ i, IsInt32 s i
    · obtain ⟨i, hi⟩ := h; exact ⟨_, .index i hi⟩
    · exact ⟨_, .name (fun i hi => h ⟨i, hi⟩)⟩
  have key : ∀ (key : Str) (segs : List Str) (first : Bool), segs ≠ [] → (∀ s ∈ segs, s ≠ []) →
      (first = true → ∀ s, segs.head? = some s → ∀ i, ¬IsInt32 s i) →
      ∃ ps, ReadsKey key first (segs.map (·.map .plain)) (.ok ps) ∧ List.Forall₂ PlainPart segs ps := by
    intro key segs
    induction segs with
    | nil => intro _ h; exact absurd rfl h
    | cons s ss ih =>
      intro first _ hs hf
      obtain ⟨p, hp⟩ := part s
      have hs0 : s ≠ [] := hs s (by simp)
      cases ss with
      | nil => exact ⟨[p], .last (plain_reads hs0 (fun h => hf h s rfl) hp), .cons hp .nil⟩
      | cons s' ss =>
        obtain ⟨ps, h1, h2⟩ := ih false (by simp) (fun s hs' => hs s (List.mem_cons_of_mem _ hs')) (by simp)
        exact ⟨p :: ps, .cons (plain_reads hs0 (fun h => hf h s rfl) hp) h1, .cons hp h2⟩
  obtain ⟨ps, h1, h2⟩ := key (joinDots segs) segs true hne hs (fun _ => hf)
  refine ⟨ps, ?_, h2⟩
  rw [joinDots_eq] at h1 ⊢
  exact C03_grammar _ (plain_ok hu) _ h1

/-- C02: dot-joined segments are rejected exactly when one is empty or the first one is a number. -/
theorem C02_rejected (segs : List Str) (hu : ∀ s ∈ segs, Unquoted s) (hne : segs ≠ []) :
    (∃ e, newKey (joinDots segs) = .panic e) ↔
      ([] ∈ segs ∨ ∃ s i, segs.head? = some s ∧ IsInt32 s i) := by
  constructor
  · rintro ⟨e, he⟩
    by_contra hc
    simp only [not_or, not_exists, not_and] at hc
    obtain ⟨ps, hps, _⟩ := C02_dots segs hu hne (fun s hs h => hc.1 (h ▸ hs)) (fun s h i => hc.2 s i h)
    rw [hps] at he; cases he
  · intro h
    have key : ∀ (key : Str) (segs : List Str) (first : Bool) (r : Res (List Part)),
        ReadsKey key first (segs.map (·.map .plain)) r →
        ([] ∈ segs ∨ first = true ∧ ∃ s i, segs.head? = some s ∧ IsInt32 s i) → ∃ e, r = .panic e := by
      have seg1 : ∀ (key : Str) (first last : Bool) (s : Str) (p : Part),
          Reads key first last (s.map .plain) (.ok p) → s ≠ [] ∧ (first = true → ∀ i, ¬IsInt32 s i) := by
        intro key first last s p h
        generalize hr : Res.ok p = r at h
        cases h with
        | verbatim _ h => exact absurd h (plainSeg_not_quoted s)
        | index i _ hi hf =>
          rw [plainSeg_content] at hi
          refine ⟨?_, by simp [hf]⟩
          rintro rfl
          have := (parseInt32_eq _ _).2 hi
          simp [parseInt32_nil] at this
        | firstIndex => simp at hr
        | empty => simp at hr
        | name _ hne hi => rw [plainSeg_content] at hne hi; exact ⟨hne, fun _ => hi⟩
      intro key segs
      induction segs with
      | nil => intro first r h; simp at h; cases h
      | cons s ss ih =>
        intro first r h hc
        cases ss with
        | nil =>
          simp only [List.map_cons, List.map_nil] at h
          cases h with
          | lastErr h => exact ⟨_, rfl⟩
          | last h =>
            obtain ⟨a, b⟩ := seg1 _ _ _ _ _ h
            rcases hc with hc | ⟨hf, s', i, hc, hi⟩
            · simp at hc; exact absurd hc a
            · simp at hc; subst hc; exact absurd hi (b hf i)
        | cons s' ss =>
          simp only [List.map_cons] at h
          cases h with
          | consErr h => exact ⟨_, rfl⟩
          | consErr' h => exact ⟨_, rfl⟩
          | cons h h' =>
            obtain ⟨a, b⟩ := seg1 _ _ _ _ _ h
            exfalso
            rcases hc with hc | ⟨hf, s', i, hc, hi⟩
            · rcases List.mem_cons.1 hc with hc | hc
              · exact a hc.symm
              · obtain ⟨e, he⟩ := ih false _ h' (.inl hc)
                cases he
            · simp at hc; subst hc; exact absurd hi (b hf i)
    obtain ⟨r, hr⟩ := readsKey_total (joinDots segs) (segs.map (·.map .plain)) true (by simpa using hne)
    obtain ⟨e, rfl⟩ := key _ segs true r hr (h.imp id (fun h => ⟨rfl, h⟩))
    rw [joinDots_eq] at hr ⊢
    exact ⟨e, C03_grammar _ (plain_ok hu) _ hr⟩

example : newKey (joinDots ["a".toList, "2".toList, "-b".toList]) =
    .ok ⟨"a.2.-b".toList, [.name "a".toList, .idx 2, .name "-b".toList]⟩ := by decide

/-! ### C03 -/

/-- C03: a part sequence is what `NewKey` returns for some text exactly if it is `Denotable`. -/
theorem C03_range (ps : List Part) :
    (∃ s, newKey s = .ok ⟨s, ps⟩) ↔ Denotable true ps := by
  constructor
  · rintro ⟨s, hs⟩
    rcases text_or_open s with ⟨segs, h1, h2, rfl⟩ | ⟨segs, q, t, h1, h2, h3, h4, rfl⟩
    · obtain ⟨r, hr⟩ := readsKey_total (keyText segs) segs true h1
      have hg := C03_grammar segs h2 r hr
      cases r with
      | panic e => rw [hg] at hs; cases hs
      | ok ps' => rw [hg] at hs; cases hs; exact reads_denotable hr
    · obtain ⟨e, he⟩ := C01_unterminated segs h1 h2 q t h3 h4
      rw [he] at hs; cases hs
  · intro h
    -- the spelling does not depend on the key that is named in error messages
    obtain ⟨segs, h1, h2, h3⟩ := spell_reads [] ps true h
    have h3' : ReadsKey (keyText segs) true segs (.ok ps) := by
      have rk : ∀ (k k' : Str) (f l : Bool) (seg : Segment) (p : Part), Reads k f l seg (.ok p) → Reads k' f l seg (.ok p) := by
        intro k k' f l seg p h
        generalize hr : Res.ok p = r at h
        cases h with
        | verbatim a b => exact .verbatim a b
        | index i a b c => exact .index i a b c
        | firstIndex => simp at hr
        | empty => simp at hr
        | name a b c => exact .name a b c
      have : ∀ (k k' : Str) (f : Bool) (segs : List Segment) (r : Res (List Part)), ReadsKey k f segs r → ∀ ps, r = .ok ps →
          ReadsKey k' f segs (.ok ps) := by
        intro k k' f segs r h
        induction h with
        | last h => intro ps hr; simp at hr; subst hr; exact .last (rk _ _ _ _ _ _ h)
        | lastErr => intro ps hr; simp at hr
        | cons h _ ih => intro ps hr; simp at hr; subst hr; exact .cons (rk _ _ _ _ _ _ h) (ih _ rfl)
        | consErr => intro ps hr; simp at hr
        | consErr' => intro ps hr; simp at hr
      exact this _ _ _ _ _ h3 ps rfl
    exact ⟨keyText segs, C03_grammar segs h2 _ h3'⟩

/-- Two readings of the same text agree. -/
theorem C03_unambiguous (segs segs' : List Segment) (h : ∀ seg ∈ segs, ∀ p ∈ seg, p.Ok) (h' : ∀ seg ∈ segs', ∀ p ∈ seg, p.Ok)
    (ht : keyText segs = keyText segs') (r r' : Res (List Part)) (hr : ReadsKey (keyText segs) true segs r)
    (hr' : ReadsKey (keyText segs') true segs' r') : r = r' := by
  have a := C03_grammar segs h r hr
  have b := C03_grammar segs' h' r' hr'
  rw [ht, b] at a
  cases r <;> cases r' <;> simp_all [Res.bind]

example : Denotable true [.name "a.b'\"".toList, .idx (-7), .name []] := by
  refine ⟨by decide, ?_, rfl, by omega, trivial⟩
  exact (parseInt32_none _).1 (by decide)
example : newKey "'a.b'\"'\"'\"'.-7.''".toList =
    .ok ⟨"'a.b'\"'\"'\"'.-7.''".toList, [.name "a.b'\"".toList, .idx (-7), .name []]⟩ := by decide

/-! ### C04: false of the code, except for the last segment -/

/-- C04 is false: a quoted number that is not last is an index, and as the first segment it is rejected; a quoted empty
segment that is not last is rejected. -/
theorem C04_false :
    newKey "a.'1'.b".toList = .ok ⟨"a.'1'.b".toList, [.name "a".toList, .idx 1, .name "b".toList]⟩ ∧
    newKey "'1'.a".toList = .panic (.firstIndex "'1'.a".toList) ∧
    newKey "a.''.b".toList = .panic (.emptySegment "a.''.b".toList) := by decide

/-- What holds of C04: a segment that ends the key with a quote is taken literally, whatever it contains. Missing: the
same for quoted segments in other positions, which the code does not satisfy (`C04_false`). -/
theorem C04_quoted_partial (segs : List Segment) (last : Segment) (hok : ∀ seg ∈ segs ++ [last], ∀ p ∈ seg, p.Ok)
    (hq : EndsQuoted last) (k : Key) (h : newKey (keyText (segs ++ [last])) = .ok k) :
    k.parts.getLast? = some (.name (segContent last)) ∧ k.parts.length = segs.length + 1 := by
  obtain ⟨r, hr⟩ := readsKey_total (keyText (segs ++ [last])) (segs ++ [last]) true (by simp)
  have hg := C03_grammar _ hok r hr
  cases r with
  | panic e => rw [hg] at h; cases h
  | ok ps =>
    rw [hg] at h; cases h
    clear hg hok
    generalize hkey : keyText (segs ++ [last]) = key at hr
    clear hkey
    generalize hfirst : true = first at hr
    clear hfirst
    induction segs generalizing ps first with
    | nil =>
      simp only [List.nil_append] at hr
      cases hr with
      | last h =>
        generalize hr : Res.ok _ = r at h
        cases h with
        | verbatim => simp at hr; subst hr; simp
        | index i h => exact absurd ⟨rfl, hq⟩ h
        | firstIndex i h => exact absurd ⟨rfl, hq⟩ h
        | empty h => exact absurd ⟨rfl, hq⟩ h
        | name h => exact absurd ⟨rfl, hq⟩ h
    | cons seg segs ih =>
      obtain ⟨s', ss', hss⟩ : ∃ s' ss', segs ++ [last] = s' :: ss' := by
        cases segs with
        | nil => exact ⟨_, _, rfl⟩
        | cons a b => exact ⟨_, _, rfl⟩
      rw [List.cons_append, hss] at hr
      cases hr with
      | cons h h' =>
        rw [← hss] at h'
        obtain ⟨a, b⟩ := ih _ _ h'
        simp only [List.length_cons] at b ⊢
        refine ⟨?_, by omega⟩
        rename_i ps'
        cases ps' with
        | nil => simp at b
        | cons x xs => simpa using a

/-- A whole key in quotes is a single literal segment. -/
theorem C04_single_partial (q : Char) (s : Str) (hq : q = '\'' ∨ q = '"') (hs : q ∉ s) :
    newKey (q :: s ++ [q]) = .ok ⟨q :: s ++ [q], [.name s]⟩ := by
  have ok : ∀ seg ∈ [[Piece.quoted q s]], ∀ p ∈ seg, p.Ok := by
    intro seg h p hp; simp at h; subst h; simp at hp; subst hp; exact ⟨hq, hs⟩
  have hr : Reads (keyText [[.quoted q s]]) true true [.quoted q s] (.ok (.name s)) := by
    have := Reads.verbatim (key := keyText [[.quoted q s]]) (first := true) (last := true) (seg := [.quoted q s]) rfl
      ⟨[], q, s, rfl⟩
    simpa [segContent, Piece.content] using this
  have := C03_grammar [[.quoted q s]] ok (.ok [.name s]) (.last hr)
  simpa [keyText, segText, Piece.text, Res.bind] using this

example : EndsQuoted [.quoted '\'' "1".toList] := ⟨[], _, _, rfl⟩
example : newKey "a.'1'".toList = .ok ⟨"a.'1'".toList, [.name "a".toList, .name "1".toList]⟩ := by decide

/-! ### C05, C06 -/

/-- C05: digging into what `Bury` built finds the value. -/
theorem C05_dig_bury (k : Key) (v : Value) : k.digPure (k.bury v) = some v := by
  unfold Key.digPure Key.bury
  induction k.parts.tail with
  | nil => rfl
  | cons p ps ih =>
    have : digSegment p (buryParts (p :: ps) v) = some (buryParts ps v) := by
      cases p <;> simp [buryParts, digSegment, Entries.get_cons, Part.toValue]
    rw [digParts, this]
    exact ih

/-- `Bury` builds nested single-entry maps, one for each part after the root. -/
theorem C05_bury_follow (k : Key) (v : Value) : FollowPath k.parts.tail (k.bury v) v := by
  unfold Key.bury
  induction k.parts.tail with
  | nil => exact .nil
  | cons p ps ih =>
    refine .cons ?_ ih
    cases p with
    | idx i => exact .byInt (by simp [Part.toValue])
    | name s => exact .byName (by simp [Part.toValue])

example : (Key.mk "a.b.2".toList [.name "a".toList, .name "b".toList, .idx 2]).bury (.int 7) =
    .map [(.str "b".toList, .map [(.int 2, .int 7)])] := rfl

theorem follow_iff (p : Part) (v w : Value) (hw : v.WF) : digSegment p v = some w ↔ Follow p v w := by
  have mapCase : ∀ (es : Entries) (key : Value), (Value.map es).WF → (∀ x, Value.equals key x = true ↔ key = x) →
      (Entries.get es key = some w ↔ (key, w) ∈ es) := by
    intro es key hwf heq
    constructor
    · intro h
      obtain ⟨⟨k', w'⟩, hk, he, rfl⟩ := Entries.get_mem h
      rwa [(heq k').1 he]
    · intro h
      have hk : key.WF := (Entries.WF_of_mem hwf h).1
      exact Entries.get_of_mem hwf h hk ((heq key).2 rfl)
  have eqs : ∀ (s : Str) (x : Value), Value.equals (.str s) x = true ↔ .str s = x := by
    intro s x; cases x <;> simp [Value.equals]
  have eqi : ∀ (i : Int) (x : Value), Value.equals (.int i) x = true ↔ .int i = x := by
    intro s x; cases x <;> simp [Value.equals]
  cases v with
  | arr es =>
    cases p with
    | name s => simp only [digSegment, reduceCtorEq, false_iff]; intro h; cases h
    | idx i =>
      simp only [digSegment]
      constructor
      · intro h
        split at h <;> rename_i hi
        · have : i = ((i.toNat : Nat) : Int) := by omega
          rw [this]
          exact .elem h
        · cases h
      · intro h
        cases h with
        | elem h =>
          have := (List.getElem?_eq_some_iff.1 h).1
          rw [if_pos (by omega)]
          simpa using h
  | map es =>
    cases p with
    | name s =>
      simp only [digSegment, Part.toValue]
      rw [mapCase es _ hw (eqs s)]
      exact ⟨fun h => .byName h, fun h => by cases h; assumption⟩
    | idx i =>
      simp only [digSegment, Part.toValue]
      rw [mapCase es _ hw (eqi i)]
      exact ⟨fun h => .byInt h, fun h => by cases h; assumption⟩
  | _ => simp only [digSegment, reduceCtorEq, false_iff]; intro h; cases h

/-- C06: `Dig` finds exactly the value at the end of the path. For every other input it returns `none`: there is no
error case. -/
theorem C06_dig (k : Key) (v w : Value) (hw : v.WF) :
    k.digPure v = some w ↔ FollowPath k.parts.tail v w := by
  unfold Key.digPure
  induction k.parts.tail generalizing v with
  | nil => simp only [digParts, Option.some.injEq]; exact ⟨fun h => h ▸ .nil, fun h => by cases h; rfl⟩
  | cons p ps ih =>
    rw [digParts]
    constructor
    · intro h
      cases hd : digSegment p v with
      | none => rw [hd] at h; cases h
      | some x =>
        rw [hd] at h
        have hf := (follow_iff p v x hw).1 hd
        have hx : x.WF := by
          cases hf with
          | elem h => exact (WF_arr.1 hw) _ (List.mem_of_getElem? h)
          | byName h => exact (Entries.WF_of_mem hw h).2
          | byInt h => exact (Entries.WF_of_mem hw h).2
        exact .cons hf ((ih x hx).1 h)
    · intro h
      cases h with
      | cons hf hp =>
        rw [(follow_iff p v _ hw).2 hf]
        refine (ih _ ?_).2 hp
        cases hf with
        | elem h => exact (WF_arr.1 hw) _ (List.mem_of_getElem? h)
        | byName h => exact (Entries.WF_of_mem hw h).2
        | byInt h => exact (Entries.WF_of_mem hw h).2

example : (Key.mk "a.b.1".toList [.name "a".toList, .name "b".toList, .idx 1]).digPure
    (.map [(.str "b".toList, .arr [.int 1, .int 2])]) = some (.int 2) := by decide
example : (Key.mk "a.b.2".toList [.name "a".toList, .name "b".toList, .idx 2]).digPure
    (.map [(.str "b".toList, .arr [.int 1, .int 2])]) = none := by decide

end Hiera
