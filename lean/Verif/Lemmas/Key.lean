/- Lemmas about the key parser. -/
import Verif.Spec.Key
import Verif.Lemmas.Map

set_option autoImplicit false

namespace Hiera
open Spec Value

/-! ### Integers -/

theorem digit?_eq_some {c : Char} {n : Nat} : digit? c = some n ↔ (48 ≤ c.toNat ∧ c.toNat ≤ 57) ∧ n = c.toNat - 48 := by
  have h1 : ('0' ≤ c) ↔ 48 ≤ c.toNat := by
    rw [Char.le_def, UInt32.le_iff_toNat_le]; rfl
  have h2 : (c ≤ '9') ↔ c.toNat ≤ 57 := by
    rw [Char.le_def, UInt32.le_iff_toNat_le]; rfl
  simp only [digit?, h1, h2]
  have : ('0' : Char).toNat = 48 := rfl
  rw [this]
  split <;> rename_i h
  · simp [h, eq_comm]
  · simp only [reduceCtorEq, false_iff]; exact fun h' => h h'.1

theorem parseDigits_eq (ds : Str) : ∀ acc n, parseDigits acc ds = some n ↔
    (∀ c ∈ ds, 48 ≤ c.toNat ∧ c.toNat ≤ 57) ∧ n = ds.foldl (fun a c => 10 * a + (c.toNat - 48)) acc := by
  induction ds with
  | nil => intro acc n; simp [parseDigits, eq_comm]
  | cons c cs ih =>
    intro acc n
    rw [parseDigits]
    cases h : digit? c with
    | none =>
      simp only [List.mem_cons, forall_eq_or_imp, reduceCtorEq, false_iff]
      intro h'
      rw [digit?_eq_some.2 ⟨h'.1.1, rfl⟩] at h
      exact absurd h (by simp)
    | some d =>
      obtain ⟨hd, rfl⟩ := digit?_eq_some.1 h
      simp only [ih, List.mem_cons, forall_eq_or_imp, hd, List.foldl_cons, true_and]
      rw [Nat.mul_comm acc 10]

theorem parseUint_eq (ds : Str) (n : Nat) : parseUint ds = some n ↔
    ds ≠ [] ∧ (∀ c ∈ ds, 48 ≤ c.toNat ∧ c.toNat ≤ 57) ∧ n = decimalValue ds := by
  cases ds with
  | nil => simp [parseUint]
  | cons c cs => rw [parseUint, parseDigits_eq]; simp [decimalValue]; simp

theorem parseInt32_eq (s : Str) (i : Int) : parseInt32 s = some i ↔ IsInt32 s i := by
  constructor
  · intro h
    unfold parseInt32 at h
    split at h
    · rename_i cs
      split at h
      · rename_i n hn
        split at h
        · obtain ⟨h1, h2, rfl⟩ := (parseUint_eq _ _).1 hn
          simp at h
          exact ⟨['-'], cs, rfl, h1, h2, .inr ⟨rfl, h.symm⟩, by omega, by omega⟩
        · simp at h
      · simp at h
    · rename_i cs
      split at h
      · rename_i n hn
        split at h
        · obtain ⟨h1, h2, rfl⟩ := (parseUint_eq _ _).1 hn
          simp at h
          exact ⟨['+'], cs, rfl, h1, h2, .inl ⟨.inr rfl, h.symm⟩, by omega, by omega⟩
        · simp at h
      · simp at h
    · split at h
      · rename_i n hn
        split at h
        · obtain ⟨h1, h2, rfl⟩ := (parseUint_eq _ _).1 hn
          simp at h
          exact ⟨[], s, rfl, h1, h2, .inl ⟨.inl rfl, h.symm⟩, by omega, by omega⟩
        · simp at h
      · simp at h
  · rintro ⟨sign, ds, rfl, hne, hd, hs, lo, hi⟩
    have hu := (parseUint_eq ds _).2 ⟨hne, hd, rfl⟩
    rcases hs with ⟨rfl | rfl, rfl⟩ | ⟨rfl, rfl⟩
    · obtain ⟨c, cs, rfl⟩ := List.exists_cons_of_ne_nil hne
      have hc := hd c (by simp)
      have hm : c ≠ '-' := by rintro rfl; exact absurd hc (by decide)
      have hp : c ≠ '+' := by rintro rfl; exact absurd hc (by decide)
      simp only [List.nil_append]
      unfold parseInt32
      split
      · rename_i h; simp at h; exact absurd h.1 hm
      · rename_i h; simp at h; exact absurd h.1 hp
      · rw [hu]; simp; omega
    · simp only [List.cons_append, List.nil_append, parseInt32, hu]; simp; omega
    · simp only [List.cons_append, List.nil_append, parseInt32, hu]; simp; omega

theorem parseInt32_none (s : Str) : parseInt32 s = none ↔ ∀ i, ¬IsInt32 s i := by
  constructor
  · intro h i hi; rw [← parseInt32_eq, h] at hi; simp at hi
  · intro h
    cases h' : parseInt32 s with
    | none => rfl
    | some i => exact absurd ((parseInt32_eq s i).1 h') (h i)

theorem parseInt32_nil : parseInt32 [] = none := rfl

/-- Every natural number has a decimal spelling. -/
theorem exists_decimal (n : Nat) : ∃ ds : Str, ds ≠ [] ∧ (∀ c ∈ ds, 48 ≤ c.toNat ∧ c.toNat ≤ 57) ∧ decimalValue ds = n := by
  induction n using Nat.strongRecOn with
  | ind n ih =>
    have dig : ∀ d < 10, ∃ c : Char, c.toNat = 48 + d := by
      intro d hd
      have : ∀ d : Fin 10, ∃ c ∈ ['0','1','2','3','4','5','6','7','8','9'], c.toNat = 48 + d.1 := by decide
      obtain ⟨c, _, hc⟩ := this ⟨d, hd⟩
      exact ⟨c, hc⟩
    by_cases h : n < 10
    · obtain ⟨c, hc⟩ := dig n h
      exact ⟨[c], by simp, by simp; omega, by simp [decimalValue]; omega⟩
    · obtain ⟨ds, h1, h2, h3⟩ := ih (n / 10) (by omega)
      obtain ⟨c, hc⟩ := dig (n % 10) (by omega)
      refine ⟨ds ++ [c], by simp, ?_, ?_⟩
      · intro x hx
        rcases List.mem_append.1 hx with hx | hx
        · exact h2 x hx
        · simp only [List.mem_singleton] at hx; subst hx; omega
      · rw [decimalValue] at h3 ⊢
        rw [List.foldl_append, h3]
        simp; omega

theorem exists_int32 (i : Int) (lo : -2147483648 ≤ i) (hi : i ≤ 2147483647) :
    ∃ s : Str, IsInt32 s i ∧ ∀ c ∈ s, Piece.Ok (.plain c) := by
  have plain : ∀ c : Char, 48 ≤ c.toNat ∧ c.toNat ≤ 57 → Piece.Ok (.plain c) := by
    intro c hc
    refine ⟨?_, ?_, ?_⟩ <;> (rintro rfl; exact absurd hc (by decide))
  obtain ⟨ds, h1, h2, h3⟩ := exists_decimal i.natAbs
  by_cases h : 0 ≤ i
  · exact ⟨ds, ⟨[], ds, rfl, h1, h2, .inl ⟨.inl rfl, by omega⟩, lo, hi⟩, fun c hc => plain c (h2 c hc)⟩
  · refine ⟨'-' :: ds, ⟨['-'], ds, rfl, h1, h2, .inr ⟨rfl, by omega⟩, lo, hi⟩, ?_⟩
    intro c hc
    rcases List.mem_cons.1 hc with rfl | hc
    · simp [Piece.Ok]
    · exact plain c (h2 c hc)

/-! ### The parser -/

theorem parseQuoted_run (q : Char) (key : Str) (parts : List Part) (rest : Str) :
    ∀ (s b : Str), q ∉ s → parseQuoted b q key parts (s ++ q :: rest) =
      if rest = [] then .ok (parts ++ [.name (b ++ s)]) else parseUnquoted (b ++ s) key parts rest := by
  intro s
  induction s with
  | nil => intro b _; simp [parseQuoted]
  | cons c cs ih =>
    intro b hq
    simp only [List.mem_cons, not_or] at hq
    rw [List.cons_append, parseQuoted, if_neg (fun h => hq.1 h.symm), ih _ hq.2]
    simp

theorem parseQuoted_open (q : Char) (key : Str) (parts : List Part) :
    ∀ (s b : Str), q ∉ s → parseQuoted b q key parts s = .panic (.unterminatedQuote key) := by
  intro s
  induction s with
  | nil => intro b _; rw [parseQuoted]
  | cons c cs ih =>
    intro b hq
    simp only [List.mem_cons, not_or] at hq
    rw [parseQuoted, if_neg (fun h => hq.1 h.symm), ih _ hq.2]

theorem segText_ne_nil {seg : Segment} (h : seg ≠ []) : segText seg ≠ [] := by
  cases seg with
  | nil => exact absurd rfl h
  | cons p ps => cases p <;> simp [segText, Piece.text]

/-- Consuming a segment that does not end the key with a quote. -/
theorem parseUnquoted_seg (key : Str) (parts : List Part) (rest : Str) :
    ∀ (seg : Segment) (b : Str), (∀ p ∈ seg, p.Ok) → (rest = [] → ¬EndsQuoted seg) →
      parseUnquoted b key parts (segText seg ++ rest) = parseUnquoted (b ++ segContent seg) key parts rest := by
  intro seg
  induction seg with
  | nil => intro b _ _; simp [segText, segContent]
  | cons p ps ih =>
    intro b hok hend
    have hps : rest = [] → ¬EndsQuoted ps := by
      rintro h ⟨init, q, s, rfl⟩
      exact hend h ⟨p :: init, q, s, rfl⟩
    have hp := hok p (by simp)
    cases p with
    | plain c =>
      obtain ⟨h1, h2, h3⟩ := hp
      have : segText (.plain c :: ps) ++ rest = c :: (segText ps ++ rest) := by simp [segText, Piece.text]
      rw [this, parseUnquoted, if_neg (by simp [h1, h2]), if_neg h3, ih _ (fun p hp => hok p (by simp [hp])) hps]
      simp [segContent, Piece.content]
    | quoted q s =>
      obtain ⟨h1, h2⟩ := hp
      have : segText (.quoted q s :: ps) ++ rest = q :: (s ++ q :: (segText ps ++ rest)) := by
        simp [segText, Piece.text]
      rw [this, parseUnquoted, if_pos h1, parseQuoted_run _ _ _ _ _ _ h2, if_neg,
        ih _ (fun p hp => hok p (by simp [hp])) hps]
      · simp [segContent, Piece.content]
      · intro h
        obtain ⟨ha, hb⟩ := List.append_eq_nil_iff.1 h
        have : ps = [] := by
          by_contra hne
          exact segText_ne_nil hne ha
        exact hend hb ⟨[], q, s, by simp [this]⟩

/-- Consuming a last segment that ends with a quote. -/
theorem parseUnquoted_verbatim (key : Str) (parts : List Part) (seg : Segment) (b : Str) (hok : ∀ p ∈ seg, p.Ok)
    (h : EndsQuoted seg) : parseUnquoted b key parts (segText seg) = .ok (parts ++ [.name (b ++ segContent seg)]) := by
  obtain ⟨init, q, s, rfl⟩ := h
  obtain ⟨h1, h2⟩ := hok (.quoted q s) (by simp)
  have e1 : segText (init ++ [.quoted q s]) = segText init ++ (q :: (s ++ q :: [])) := by
    simp [segText, Piece.text]
  rw [e1, parseUnquoted_seg _ _ _ _ _ (fun p hp => hok p (by simp [hp])) (by simp), parseUnquoted, if_pos h1,
    parseQuoted_run _ _ _ _ _ _ h2]
  simp [segContent, Piece.content]

theorem mungedPart_reads {key : Str} {parts : List Part} {seg : Segment} {last : Bool} {r : Res Part}
    (h : ¬(last = true ∧ EndsQuoted seg)) (hr : Reads key (decide (parts.length = 0)) last seg r) :
    mungedPart key parts.length (segContent seg) = r := by
  unfold mungedPart
  cases hr with
  | verbatim h1 h2 => exact absurd ⟨h1, h2⟩ h
  | index i _ hi hf => rw [(parseInt32_eq _ _).2 hi]; simp at hf; simp [hf]
  | firstIndex i _ hi hf => rw [(parseInt32_eq _ _).2 hi]; simp at hf; simp [hf]
  | empty _ he => rw [he, parseInt32_nil]; simp
  | name _ hne hi => rw [(parseInt32_none _).2 hi]; simp [hne]

theorem keyTextCons (seg seg' : Segment) (segs : List Segment) :
    keyText (seg :: seg' :: segs) = segText seg ++ '.' :: keyText (seg' :: segs) := rfl

/-- The parser computes what the grammar says. -/
theorem parseUnquoted_readsKey {key : Str} {segs : List Segment} {r : Res (List Part)} :
    ∀ {parts : List Part}, (∀ seg ∈ segs, ∀ p ∈ seg, p.Ok) → ReadsKey key (decide (parts.length = 0)) segs r →
      parseUnquoted [] key parts (keyText segs) = match r with
        | .ok ps => .ok (parts ++ ps)
        | .panic e => .panic e := by
  have lastCase : ∀ (parts : List Part) (seg : Segment) (r : Res Part), (∀ p ∈ seg, p.Ok) →
      Reads key (decide (parts.length = 0)) true seg r →
      parseUnquoted [] key parts (segText seg) = match r with
        | .ok p => .ok (parts ++ [p])
        | .panic e => .panic e := by
    intro parts seg r hok hr
    by_cases hq : EndsQuoted seg
    · rw [parseUnquoted_verbatim _ _ _ _ hok hq]
      cases hr with
      | verbatim => simp
      | index _ h => exact absurd ⟨rfl, hq⟩ h
      | firstIndex _ h => exact absurd ⟨rfl, hq⟩ h
      | empty h => exact absurd ⟨rfl, hq⟩ h
      | name h => exact absurd ⟨rfl, hq⟩ h
    · have := parseUnquoted_seg key parts [] seg [] hok (fun _ => hq)
      rw [List.append_nil, List.nil_append] at this
      rw [this, parseUnquoted, mungedPart_reads (by simp [hq]) hr]
      cases r <;> rfl
  have consCase : ∀ (parts : List Part) (seg : Segment) (rest : Str) (r : Res Part), (∀ p ∈ seg, p.Ok) →
      Reads key (decide (parts.length = 0)) false seg r →
      parseUnquoted [] key parts (segText seg ++ '.' :: rest) = match r with
        | .ok p => parseUnquoted [] key (parts ++ [p]) rest
        | .panic e => .panic e := by
    intro parts seg rest r hok hr
    rw [parseUnquoted_seg key parts _ seg [] hok (by simp), parseUnquoted, if_neg (by decide), if_pos rfl,
      List.nil_append, mungedPart_reads (by simp) hr]
    cases r <;> rfl
  intro parts hok h
  generalize hf : decide (parts.length = 0) = first at h
  induction h generalizing parts with
  | last h => subst hf; simpa [keyText] using lastCase parts _ _ (hok _ (by simp)) h
  | lastErr h => subst hf; simpa [keyText] using lastCase parts _ _ (hok _ (by simp)) h
  | cons h _ ih =>
    subst hf
    rw [keyTextCons, consCase parts _ _ _ (hok _ (by simp)) h]
    simp only []
    rw [ih (fun s hs => hok s (List.mem_cons_of_mem _ hs)) (by simp)]; simp
  | consErr h =>
    subst hf
    rw [keyTextCons, consCase parts _ _ _ (hok _ (by simp)) h]
  | consErr' h _ ih =>
    subst hf
    rw [keyTextCons, consCase parts _ _ _ (hok _ (by simp)) h]
    exact ih (fun s hs => hok s (List.mem_cons_of_mem _ hs)) (by simp)

/-- Every segment can be read. -/
theorem reads_total (key : Str) (first last : Bool) (seg : Segment) : ∃ r, Reads key first last seg r := by
  by_cases h : last = true ∧ EndsQuoted seg
  · exact ⟨_, .verbatim h.1 h.2⟩
  · by_cases h' : ∃ i, IsInt32 (segContent seg) i
    · obtain ⟨i, hi⟩ := h'
      cases first
      · exact ⟨_, .index i h hi rfl⟩
      · exact ⟨_, .firstIndex i h hi rfl⟩
    · by_cases he : segContent seg = []
      · exact ⟨_, .empty h he⟩
      · exact ⟨_, .name h he (fun i hi => h' ⟨i, hi⟩)⟩

theorem readsKey_total (key : Str) : ∀ (segs : List Segment) (first : Bool), segs ≠ [] → ∃ r, ReadsKey key first segs r := by
  intro segs
  induction segs with
  | nil => intro _ h; exact absurd rfl h
  | cons seg segs ih =>
    intro first _
    cases segs with
    | nil =>
      obtain ⟨r, hr⟩ := reads_total key first true seg
      cases r with
      | ok p => exact ⟨_, .last hr⟩
      | panic e => exact ⟨_, .lastErr hr⟩
    | cons seg' segs =>
      obtain ⟨r, hr⟩ := reads_total key first false seg
      cases r with
      | panic e => exact ⟨_, .consErr hr⟩
      | ok p =>
        obtain ⟨r', hr'⟩ := ih false (by simp)
        cases r' with
        | ok ps => exact ⟨_, .cons hr hr'⟩
        | panic e => exact ⟨_, .consErr' hr hr'⟩

/-- A string is either the text of a key or has an unterminated quote. -/
theorem text_or_open (s : Str) :
    (∃ segs : List Segment, segs ≠ [] ∧ (∀ seg ∈ segs, ∀ p ∈ seg, p.Ok) ∧ keyText segs = s) ∨
    (∃ (segs : List Segment) (q : Char) (t : Str), segs ≠ [] ∧ (∀ seg ∈ segs, ∀ p ∈ seg, p.Ok) ∧
      (q = '\'' ∨ q = '"') ∧ q ∉ t ∧ s = keyText segs ++ q :: t) := by
  have keyCons : ∀ (p : Piece) (seg : Segment) (segs : List Segment),
      keyText ((p :: seg) :: segs) = p.text ++ keyText (seg :: segs) := by
    intro p seg segs
    cases segs <;> simp [keyText, segText]
  have keyDot : ∀ (segs : List Segment), segs ≠ [] → keyText ([] :: segs) = '.' :: keyText segs := by
    intro segs h
    cases segs with
    | nil => exact absurd rfl h
    | cons => simp [keyText, segText]
  induction hn : s.length using Nat.strongRecOn generalizing s with
  | ind n ih =>
    subst hn
    cases s with
    | nil => exact .inl ⟨[[]], by simp, by simp, rfl⟩
    | cons c cs =>
      by_cases hq : c = '\'' ∨ c = '"'
      · by_cases hmem : c ∈ cs
        · obtain ⟨u, rest, rfl, hu⟩ := List.append_of_mem hmem |>.elim fun u h => h.elim fun v h =>
            (List.eq_append_cons_of_mem hmem : ∃ as bs, cs = as ++ c :: bs ∧ c ∉ as)
          have hOk : Piece.Ok (.quoted c u) := ⟨hq, hu⟩
          rcases ih rest.length (by simp; omega) rest rfl with ⟨segs, h1, h2, h3⟩ | ⟨segs, q, t, h1, h2, h3, h4, h5⟩
          · obtain ⟨seg, segs, rfl⟩ := List.exists_cons_of_ne_nil h1
            refine .inl ⟨(.quoted c u :: seg) :: segs, by simp, ?_, ?_⟩
            · intro sg hs p hp
              rcases List.mem_cons.1 hs with rfl | hs
              · rcases List.mem_cons.1 hp with rfl | hp
                · exact hOk
                · exact h2 seg (by simp) p hp
              · exact h2 sg (by simp [hs]) p hp
            · rw [keyCons, h3]; simp [Piece.text]
          · obtain ⟨seg, segs, rfl⟩ := List.exists_cons_of_ne_nil h1
            refine .inr ⟨(.quoted c u :: seg) :: segs, q, t, by simp, ?_, h3, h4, ?_⟩
            · intro sg hs p hp
              rcases List.mem_cons.1 hs with rfl | hs
              · rcases List.mem_cons.1 hp with rfl | hp
                · exact hOk
                · exact h2 seg (by simp) p hp
              · exact h2 sg (by simp [hs]) p hp
            · rw [keyCons, h5]; simp [Piece.text]
        · exact .inr ⟨[[]], c, cs, by simp, by simp, hq, hmem, by simp [keyText, segText]⟩
      · by_cases hd : c = '.'
        · subst hd
          rcases ih cs.length (by simp) cs rfl with ⟨segs, h1, h2, h3⟩ | ⟨segs, q, t, h1, h2, h3, h4, h5⟩
          · refine .inl ⟨[] :: segs, by simp, ?_, by rw [keyDot _ h1, h3]⟩
            intro sg hs p hp
            rcases List.mem_cons.1 hs with rfl | hs
            · simp at hp
            · exact h2 sg hs p hp
          · refine .inr ⟨[] :: segs, q, t, by simp, ?_, h3, h4, by rw [keyDot _ h1, h5]; simp⟩
            intro sg hs p hp
            rcases List.mem_cons.1 hs with rfl | hs
            · simp at hp
            · exact h2 sg hs p hp
        · have hOk : Piece.Ok (.plain c) := ⟨fun h => hq (.inl h), fun h => hq (.inr h), hd⟩
          rcases ih cs.length (by simp) cs rfl with ⟨segs, h1, h2, h3⟩ | ⟨segs, q, t, h1, h2, h3, h4, h5⟩
          · obtain ⟨seg, segs, rfl⟩ := List.exists_cons_of_ne_nil h1
            refine .inl ⟨(.plain c :: seg) :: segs, by simp, ?_, ?_⟩
            · intro sg hs p hp
              rcases List.mem_cons.1 hs with rfl | hs
              · rcases List.mem_cons.1 hp with rfl | hp
                · exact hOk
                · exact h2 seg (by simp) p hp
              · exact h2 sg (by simp [hs]) p hp
            · rw [keyCons, h3]; simp [Piece.text]
          · obtain ⟨seg, segs, rfl⟩ := List.exists_cons_of_ne_nil h1
            refine .inr ⟨(.plain c :: seg) :: segs, q, t, by simp, ?_, h3, h4, ?_⟩
            · intro sg hs p hp
              rcases List.mem_cons.1 hs with rfl | hs
              · rcases List.mem_cons.1 hp with rfl | hp
                · exact hOk
                · exact h2 seg (by simp) p hp
              · exact h2 sg (by simp [hs]) p hp
            · rw [keyCons, h5]; simp [Piece.text]

/-- An unterminated quote is always an error. -/
theorem parseUnquoted_open {key : Str} {q : Char} {t : Str} (hq : q = '\'' ∨ q = '"') (ht : q ∉ t) :
    ∀ (segs : List Segment) (parts : List Part), segs ≠ [] → (∀ seg ∈ segs, ∀ p ∈ seg, p.Ok) →
      ∃ e, parseUnquoted [] key parts (keyText segs ++ q :: t) = .panic e ∧
        (e = .firstIndex key ∨ e = .emptySegment key ∨ e = .unterminatedQuote key) := by
  intro segs
  induction segs with
  | nil => intro _ h; exact absurd rfl h
  | cons seg segs ih =>
    intro parts _ hok
    cases segs with
    | nil =>
      rw [keyText, parseUnquoted_seg _ _ _ _ _ (hok seg (by simp)) (by simp), parseUnquoted, if_pos hq,
        parseQuoted_open _ _ _ _ _ ht]
      exact ⟨_, rfl, by simp⟩
    | cons seg' segs =>
      rw [keyText, List.append_assoc, List.cons_append,
        parseUnquoted_seg _ _ _ _ _ (hok seg (by simp)) (by simp), parseUnquoted, if_neg (by decide), if_pos rfl]
      · cases hm : mungedPart key parts.length ([] ++ segContent seg) with
        | ok p => exact ih _ (by simp) (fun s hs => hok s (by simp [hs]))
        | panic e =>
          refine ⟨e, rfl, ?_⟩
          unfold mungedPart at hm
          split at hm <;> split at hm <;> simp at hm <;> simp [← hm]
      · simp

theorem reads_denotable {key : Str} {segs : List Segment} {first : Bool} {ps : List Part}
    (h : ReadsKey key first segs (.ok ps)) : Denotable first ps := by
  generalize hr : Res.ok ps = r at h
  induction h generalizing ps with
  | last h =>
    simp at hr; subst hr
    cases h with
    | verbatim => simp [Denotable]
    | index i _ hi hf =>
      obtain ⟨_, _, _, _, _, _, lo, hi⟩ := hi
      exact ⟨hf, lo, hi⟩
    | name => simp [Denotable]
  | lastErr => simp at hr
  | cons h hk ih =>
    simp at hr; subst hr
    have := ih rfl
    rename_i ps'
    cases ps' with
    | nil => simp [Denotable] at this
    | cons p' ps' =>
      cases h with
      | verbatim h => simp at h
      | index i _ hi hf =>
        obtain ⟨_, _, _, _, _, _, lo, hi⟩ := hi
        exact ⟨hf, ⟨lo, hi⟩, this⟩
      | name _ hne hi => exact ⟨hne, hi, this⟩
  | consErr => simp at hr
  | consErr' => simp at hr

/-- Quote every character. -/
def spellName (s : Str) : Segment :=
  if s = [] then [.quoted '\'' []] else s.map (fun c => if c = '\'' then .quoted '"' [c] else .quoted '\'' [c])

theorem spellName_ok (s : Str) : ∀ p ∈ spellName s, p.Ok := by
  intro p hp
  unfold spellName at hp
  split at hp
  · simp at hp; subst hp; simp [Piece.Ok]
  · obtain ⟨c, _, rfl⟩ := List.mem_map.1 hp
    split <;> rename_i h
    · subst h; simp [Piece.Ok]
    · simp [Piece.Ok, eq_comm, h]

theorem spellName_content (s : Str) : segContent (spellName s) = s := by
  unfold spellName
  split <;> rename_i h
  · subst h; simp [segContent, Piece.content]
  · clear h
    induction s with
    | nil => rfl
    | cons c cs ih =>
      simp only [segContent, List.map_cons, List.flatMap_cons] at ih ⊢
      rw [ih]
      split <;> simp [Piece.content]

theorem spellName_endsQuoted (s : Str) : EndsQuoted (spellName s) := by
  unfold spellName
  split <;> rename_i h
  · exact ⟨[], _, _, rfl⟩
  · obtain ⟨init, c, rfl⟩ : ∃ init c, s = init ++ [c] := ⟨s.dropLast, s.getLast h, (List.dropLast_append_getLast h).symm⟩
    rw [List.map_append, List.map_singleton]
    split
    · exact ⟨_, _, _, rfl⟩
    · exact ⟨_, _, _, rfl⟩

theorem plainSeg_content (s : Str) : segContent (s.map .plain) = s := by
  induction s with
  | nil => rfl
  | cons c cs ih =>
    simp only [segContent, List.map_cons, List.flatMap_cons] at ih ⊢
    rw [ih]; simp [Piece.content]

theorem plainSeg_not_quoted (s : Str) : ¬EndsQuoted (s.map .plain) := by
  rintro ⟨init, q, t, h⟩
  have : Piece.quoted q t ∈ s.map Piece.plain := by rw [h]; simp
  simp at this

theorem spell_reads (key : Str) : ∀ (ps : List Part) (first : Bool), Denotable first ps →
    ∃ segs : List Segment, segs ≠ [] ∧ (∀ seg ∈ segs, ∀ p ∈ seg, p.Ok) ∧ ReadsKey key first segs (.ok ps) := by
  intro ps
  induction ps with
  | nil => intro _ h; simp [Denotable] at h
  | cons p ps ih =>
    intro first h
    cases ps with
    | nil =>
      cases p with
      | name s =>
        refine ⟨[spellName s], by simp, ?_, .last ?_⟩
        · intro seg hs; simp at hs; subst hs; exact spellName_ok s
        · have := Reads.verbatim (key := key) (first := first) (last := true) rfl (spellName_endsQuoted s)
          rwa [spellName_content] at this
      | idx i =>
        obtain ⟨hf, lo, hi⟩ := h
        obtain ⟨s, hs, hp⟩ := exists_int32 i lo hi
        refine ⟨[s.map .plain], by simp, ?_, .last (.index i ?_ ?_ hf)⟩
        · intro seg hseg p hpp; simp at hseg; subst hseg
          obtain ⟨c, hc, rfl⟩ := List.mem_map.1 hpp
          exact hp c hc
        · simp [plainSeg_not_quoted]
        · rwa [plainSeg_content]
    | cons p' ps =>
      cases p with
      | name s =>
        obtain ⟨hne, hi, hd⟩ := h
        obtain ⟨segs, h1, h2, h3⟩ := ih false hd
        obtain ⟨seg', segs, rfl⟩ := List.exists_cons_of_ne_nil h1
        refine ⟨spellName s :: seg' :: segs, by simp, ?_, .cons ?_ h3⟩
        · intro seg hs p hp
          rcases List.mem_cons.1 hs with rfl | hs
          · exact spellName_ok s p hp
          · exact h2 seg hs p hp
        · have := Reads.name (key := key) (first := first) (last := false) (seg := spellName s) (by simp)
            (by rwa [spellName_content]) (by rwa [spellName_content])
          rwa [spellName_content] at this
      | idx i =>
        obtain ⟨hf, ⟨lo, hi⟩, hd⟩ := h
        obtain ⟨segs, h1, h2, h3⟩ := ih false hd
        obtain ⟨seg', segs, rfl⟩ := List.exists_cons_of_ne_nil h1
        obtain ⟨s, hs, hp⟩ := exists_int32 i lo hi
        refine ⟨s.map .plain :: seg' :: segs, by simp, ?_, .cons (.index i (by simp) ?_ hf) h3⟩
        · intro seg hseg p hpp
          rcases List.mem_cons.1 hseg with rfl | hseg
          · obtain ⟨c, hc, rfl⟩ := List.mem_map.1 hpp
            exact hp c hc
          · exact h2 seg hseg p hpp
        · rwa [plainSeg_content]

end Hiera
