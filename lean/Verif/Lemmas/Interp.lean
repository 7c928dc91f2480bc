/- Lemmas about the lexical part of interpolation. -/
import Verif.Spec.Interp
import Verif.Lemmas.Fuel

set_option autoImplicit false

namespace Hiera
open Spec

/-! ### Dividing a string -/

theorem split_at_close {e e' r r' : Str} (h : '}' ∉ e) (h' : '}' ∉ e') (heq : e ++ '}' :: r = e' ++ '}' :: r') :
    e = e' ∧ r = r' := by
  induction e generalizing e' with
  | nil =>
    cases e' with
    | nil => simp only [List.nil_append, List.cons.injEq, true_and] at heq; exact ⟨rfl, heq⟩
    | cons c cs => simp only [List.nil_append, List.cons_append, List.cons.injEq] at heq; simp [← heq.1] at h'
  | cons c cs ih =>
    cases e' with
    | nil => simp only [List.nil_append, List.cons_append, List.cons.injEq] at heq; simp [heq.1] at h
    | cons d ds =>
      simp only [List.cons_append, List.cons.injEq] at heq
      obtain ⟨rfl, heq⟩ := heq
      simp only [List.mem_cons, not_or] at h h'
      obtain ⟨rfl, rfl⟩ := ih h.2 h'.2 heq
      exact ⟨rfl, rfl⟩

theorem splits_no_close {s : Str} (h : '}' ∉ s) : Splits s (s.map .chr) := by
  induction s with
  | nil => exact .nil
  | cons c cs ih =>
    refine .chr ?_ (ih (fun hm => h (List.mem_cons_of_mem _ hm)))
    rintro ⟨e, rest, _, heq⟩
    exact h (heq ▸ by simp)

theorem not_startsExpr {c d : Char} {s : Str} (h : ¬(c = '%' ∧ d = '{')) : ¬StartsExpr (c :: d :: s) := by
  rintro ⟨e, rest, _, heq⟩
  simp only [List.cons_append, List.cons.injEq] at heq
  exact h ⟨heq.1, heq.2.1⟩

theorem not_startsExpr' {c : Char} {s : Str} (h : c ≠ '%') : ¬StartsExpr (c :: s) := by
  rintro ⟨e, rest, _, heq⟩
  simp only [List.cons_append, List.cons.injEq] at heq
  exact h heq.1

theorem tokensFrom_splits (cs : Str) :
    Splits cs (tokensFrom .text cs) ∧ Splits ('%' :: cs) (tokensFrom .percent cs) ∧
    ∀ acc, '}' ∉ acc → Splits ('%' :: '{' :: acc ++ cs) (tokensFrom (.inside acc) cs) := by
  induction cs with
  | nil =>
    refine ⟨.nil, ?_, ?_⟩
    · exact splits_no_close (s := ['%']) (by decide)
    · intro acc hacc
      simp only [tokensFrom, List.append_nil]
      exact splits_no_close (s := '%' :: '{' :: acc) (by simp [hacc])
  | cons c cs ih =>
    obtain ⟨ih1, ih2, ih3⟩ := ih
    refine ⟨?_, ?_, ?_⟩
    · rw [tokensFrom]
      by_cases hc : c = '%'
      · rw [if_pos hc, hc]; exact ih2
      · rw [if_neg hc]; exact .chr (not_startsExpr' hc) ih1
    · rw [tokensFrom]
      by_cases hc : c = '{'
      · rw [if_pos hc, hc]; exact ih3 [] (by simp)
      · rw [if_neg hc]
        by_cases hp : c = '%'
        · rw [if_pos hp, hp]; exact .chr (not_startsExpr (by simp)) ih2
        · rw [if_neg hp]; exact .chr (not_startsExpr (by simp [hc])) (.chr (not_startsExpr' hp) ih1)
    · intro acc hacc
      rw [tokensFrom]
      by_cases hc : c = '}'
      · rw [if_pos hc, hc]; exact .expr hacc ih1
      · rw [if_neg hc]
        have := ih3 (acc ++ [c]) (by simp only [List.mem_append, not_or]; exact ⟨hacc, by simpa using fun h => hc h.symm⟩)
        simpa using this

theorem tokens_splits (s : Str) : Splits s (tokens s) := (tokensFrom_splits s).1

theorem splits_unique {s : Str} {ts ts' : List Tok} (h : Splits s ts) (h' : Splits s ts') : ts = ts' := by
  induction h generalizing ts' with
  | nil => cases h'; rfl
  | @expr e rest ts he hr ih =>
    generalize hg : '%' :: '{' :: e ++ '}' :: rest = s at h'
    cases h' with
    | nil => cases hg
    | @expr e' rest' ts' he' hr' =>
      simp only [List.cons_append, List.cons.injEq, true_and] at hg
      obtain ⟨rfl, rfl⟩ := split_at_close he he' hg
      rw [ih hr']
    | chr hn hr' => exact absurd ⟨e, rest, he, hg.symm⟩ hn
  | @chr c rest ts hn hr ih =>
    generalize hg : c :: rest = s at h'
    cases h' with
    | nil => cases hg
    | @expr e' rest' ts' he' hr' => exact absurd ⟨e', rest', he', hg⟩ hn
    | @chr c' rest' ts' hn' hr' =>
      simp only [List.cons.injEq] at hg
      obtain ⟨rfl, rfl⟩ := hg
      rw [ih hr']

theorem tokens_eq {s : Str} {ts : List Tok} (h : Splits s ts) : tokens s = ts := splits_unique (tokens_splits s) h

theorem hasMarker_iff (s : Str) : hasMarker s = true ↔ Marked s := by
  induction s with
  | nil => simp [hasMarker, Marked]
  | cons c cs ih =>
    cases cs with
    | nil =>
      simp only [hasMarker, Marked, Bool.false_eq_true, false_iff]
      rintro ⟨a, b, h⟩
      cases a <;> simp at h
    | cons d ds =>
      rw [hasMarker, Bool.or_eq_true, ih]
      constructor
      · rintro (h | ⟨a, b, h⟩)
        · simp only [Bool.and_eq_true, beq_iff_eq] at h
          exact ⟨[], ds, by simp [h.1, h.2]⟩
        · exact ⟨c :: a, b, by simp [h]⟩
      · rintro ⟨a, b, h⟩
        cases a with
        | nil => simp only [List.nil_append, List.cons.injEq] at h; left; simp [h.1, h.2.1]
        | cons x xs => simp only [List.cons_append, List.cons.injEq] at h; right; exact ⟨xs, b, h.2⟩

theorem splits_unmarked {s : Str} (h : ¬Marked s) : Splits s (s.map .chr) := by
  induction s with
  | nil => exact .nil
  | cons c cs ih =>
    refine .chr ?_ (ih (fun ⟨a, b, hm⟩ => h ⟨c :: a, b, by simp [hm]⟩))
    rintro ⟨e, rest, _, heq⟩
    exact h ⟨[], _, heq⟩

/-! ### White space -/

theorem mem_takeWhile' {p : Char → Bool} {c : Char} {l : Str} (h : c ∈ l.takeWhile p) : p c = true := by
  induction l with
  | nil => simp at h
  | cons x xs ih =>
    rw [List.takeWhile_cons] at h
    cases hp : p x <;> rw [hp] at h
    · simp at h
    · rcases List.mem_cons.1 h with rfl | h
      · exact hp
      · exact ih h

theorem isSpace_iff (c : Char) : isSpace c = true ↔ c ∈ whiteSpace := by
  have h : ∀ d : Char, c = d ↔ c.toNat = d.toNat := fun d =>
    ⟨fun h => congrArg _ h, fun h => Char.ext (UInt32.toNat_inj.1 h)⟩
  simp only [whiteSpace, List.mem_cons, List.not_mem_nil, or_false, h, isSpace, Bool.or_eq_true, Bool.and_eq_true, decide_eq_true_eq, beq_iff_eq]
  simp only [Char.reduceToNat]
  omega

theorem isSpace_false_iff (c : Char) : isSpace c = false ↔ c ∉ whiteSpace := by
  rw [← isSpace_iff, Bool.not_eq_true]

theorem trimSpace_trimmed (s : Str) : Trimmed s (trimSpace s) := by
  have h1 : s = s.takeWhile isSpace ++ s.dropWhile isSpace := (List.takeWhile_append_dropWhile).symm
  have h2 : s.dropWhile isSpace = trimSpace s ++ ((s.dropWhile isSpace).reverse.takeWhile isSpace).reverse := by
    have : (s.dropWhile isSpace).reverse =
        (s.dropWhile isSpace).reverse.takeWhile isSpace ++ (s.dropWhile isSpace).reverse.dropWhile isSpace :=
      (List.takeWhile_append_dropWhile).symm
    have := congrArg List.reverse this
    rw [List.reverse_reverse, List.reverse_append] at this
    exact this
  have hd : ∀ (l : Str) c, (l.dropWhile isSpace).head? = some c → isSpace c = false := by
    intro l c h
    cases hl : l.dropWhile isSpace with
    | nil => rw [hl] at h; cases h
    | cons x xs =>
      rw [hl] at h; cases h
      have := List.head?_dropWhile_not isSpace l
      rw [hl] at this
      simpa using this
  refine ⟨⟨s.takeWhile isSpace, ((s.dropWhile isSpace).reverse.takeWhile isSpace).reverse, ?_, ?_, ?_⟩, ?_, ?_⟩
  · rw [List.append_assoc, ← h2, ← h1]
  · exact fun c hc => (isSpace_iff c).1 (mem_takeWhile' hc)
  · exact fun c hc => (isSpace_iff c).1 (mem_takeWhile' (List.mem_reverse.1 hc))
  · intro c hc
    refine (isSpace_false_iff c).1 (hd s c ?_)
    rw [h2]
    cases ht : trimSpace s with
    | nil => rw [ht] at hc; cases hc
    | cons x xs => rw [ht] at hc; exact hc
  · intro c hc
    unfold trimSpace at hc
    rw [List.getLast?_reverse] at hc
    exact (isSpace_false_iff c).1 (hd _ c hc)

theorem dropWhile_space_append {a t : Str} (ha : ∀ c ∈ a, isSpace c = true) (ht : ∀ c, t.head? = some c → isSpace c = false) :
    (a ++ t).dropWhile isSpace = t := by
  induction a with
  | nil =>
    cases t with
    | nil => rfl
    | cons c cs => simp [ht c rfl]
  | cons c cs ih =>
    rw [List.cons_append, List.dropWhile_cons_of_pos (ha c (by simp))]
    exact ih (fun d hd => ha d (List.mem_cons_of_mem _ hd))

theorem trimmed_unique {s t : Str} (h : Trimmed s t) : trimSpace s = t := by
  obtain ⟨⟨a, b, rfl, ha, hb⟩, h1, h2⟩ := h
  simp only [← isSpace_iff, Bool.not_eq_true] at ha hb h1 h2
  unfold trimSpace
  by_cases ht : t = []
  · subst ht
    have : (a ++ [] ++ b).dropWhile isSpace = [] := by
      have := dropWhile_space_append (a := a ++ b) (t := []) (by
        intro c hc; rcases List.mem_append.1 hc with h | h
        · exact ha c h
        · exact hb c h) (by simp)
      simpa using this
    rw [this]; rfl
  · have e1 : (a ++ t ++ b).dropWhile isSpace = t ++ b := by
      rw [List.append_assoc]
      refine dropWhile_space_append ha ?_
      intro c hc
      cases t with
      | nil => exact absurd rfl ht
      | cons x xs => exact h1 c hc
    rw [e1, List.reverse_append]
    have e2 : (b.reverse ++ t.reverse).dropWhile isSpace = t.reverse := by
      refine dropWhile_space_append (fun c hc => hb c (List.mem_reverse.1 hc)) ?_
      intro c hc
      rw [List.head?_reverse] at hc
      exact h2 c hc
    rw [e2, List.reverse_reverse]

/-! ### Function calls -/

theorem isWord_iff (c : Char) : isWord c = true ↔ (c.isAlphanum = true ∨ c = '_') := by
  simp only [isWord, Char.isAlphanum, Char.isAlpha, Char.isUpper, Char.isLower, Char.isDigit, Bool.or_eq_true,
    Bool.and_eq_true, decide_eq_true_eq, beq_iff_eq]
  simp only [Char.le_def, ge_iff_le]
  constructor
  · rintro (((h | h) | h) | h)
    · exact .inl (.inl (.inr h))
    · exact .inl (.inl (.inl h))
    · exact .inl (.inr h)
    · exact .inr h
  · rintro (((h | h) | h) | h)
    · exact .inl (.inl (.inr h))
    · exact .inl (.inl (.inl h))
    · exact .inl (.inr h)
    · exact .inr h

theorem quotedArg_iff (q : Char) (acc s d : Str) :
    quotedArg q acc s = some d ↔ ∃ t, q ∉ t ∧ s = t ++ [q, ')'] ∧ d = acc ++ t ∧ d ≠ [] := by
  induction s generalizing acc with
  | nil => simp [quotedArg]
  | cons c cs ih =>
    rw [quotedArg]
    by_cases hc : c = q
    · rw [if_pos hc]
      subst hc
      by_cases h : cs = [')'] ∧ acc ≠ []
      · rw [if_pos h, Option.some.injEq]
        constructor
        · rintro rfl; exact ⟨[], by simp, by simp [h.1], by simp, h.2⟩
        · rintro ⟨t, h1, h2, h3, h4⟩
          cases t with
          | nil => simpa using h3.symm
          | cons x xs => simp only [List.cons_append, List.cons.injEq] at h2; simp [h2.1] at h1
      · rw [if_neg h]
        constructor
        · rintro ⟨⟩
        · rintro ⟨t, h1, h2, h3, h4⟩
          cases t with
          | nil =>
            simp only [List.nil_append, List.cons.injEq, true_and] at h2
            exact absurd ⟨h2, by simpa [h3] using h4⟩ h
          | cons x xs => simp only [List.cons_append, List.cons.injEq] at h2; simp [h2.1] at h1
    · rw [if_neg hc, ih]
      constructor
      · rintro ⟨t, h1, h2, h3, h4⟩
        exact ⟨c :: t, by simp only [List.mem_cons, not_or]; exact ⟨fun h => hc h.symm, h1⟩, by simp [h2], by simp [h3], h4⟩
      · rintro ⟨t, h1, h2, h3, h4⟩
        cases t with
        | nil => simp only [List.nil_append, List.cons.injEq] at h2; exact absurd h2.1 hc
        | cons x xs =>
          simp only [List.cons_append, List.cons.injEq] at h2
          simp only [List.mem_cons, not_or] at h1
          exact ⟨xs, h1.2, h2.2, by simp [h3, h2.1], h4⟩

theorem methodMatch_iff (x name arg : Str) : methodMatch x = some (name, arg) ↔ Call x name arg := by
  have hx : x = x.takeWhile isWord ++ x.dropWhile isWord := (List.takeWhile_append_dropWhile).symm
  constructor
  · intro h
    unfold methodMatch at h
    have hw : ∀ c ∈ x.takeWhile isWord, isWord c = true := fun c hc => mem_takeWhile' hc
    generalize x.takeWhile isWord = w at *
    generalize x.dropWhile isWord = r at *
    subst hx
    split at h
    · cases h
    · rename_i w' q rest hw'
      by_cases hq : q = '"' ∨ q = '\''
      · rw [if_pos hq] at h
        cases ha : quotedArg q [] rest with
        | none => rw [ha] at h; cases h
        | some d =>
          rw [ha] at h; cases h
          obtain ⟨t, h1, h2, h3, h4⟩ := (quotedArg_iff _ _ _ _).1 ha
          simp only [List.nil_append] at h3
          subst h3
          exact ⟨hw', fun c hc => (isWord_iff c).1 (hw c hc), h4, q, hq.symm, h1, by simp [h2]⟩
      · rw [if_neg hq] at h; cases h
    · cases h
  · rintro ⟨h1, h2, h3, q, hq, h4, rfl⟩
    have hw : ∀ c ∈ name, isWord c = true := fun c hc => (isWord_iff c).2 (h2 c hc)
    have e1 : (name ++ '(' :: q :: arg ++ [q, ')']).takeWhile isWord = name := by
      rw [List.append_assoc, List.takeWhile_append_of_pos hw]
      simp [isWord]
    have e2 : (name ++ '(' :: q :: arg ++ [q, ')']).dropWhile isWord = '(' :: q :: arg ++ [q, ')'] := by
      rw [List.append_assoc, List.dropWhile_append_of_pos hw]
      simp [isWord]
    unfold methodMatch
    rw [e1, e2]
    cases name with
    | nil => exact absurd rfl h1
    | cons c cs =>
      have ha : quotedArg q [] (arg ++ [q, ')']) = some arg := (quotedArg_iff _ _ _ _).2 ⟨arg, h4, rfl, rfl, h3⟩
      simp only [List.cons_append, ha, if_pos hq.symm]

theorem call_unique {x n a n' a' : Str} (h : Call x n a) (h' : Call x n' a') : n = n' ∧ a = a' := by
  rw [← methodMatch_iff] at h h'
  rw [h] at h'
  cases h'
  exact ⟨rfl, rfl⟩

end Hiera
