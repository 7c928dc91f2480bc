/- Interpolation does not depend on how expressions are written (`Spec/Spelled.lean`). -/
import Verif.Spec.Spelled
import Verif.Spec.Reference
import Verif.Lemmas.Replaced

set_option autoImplicit false

namespace Hiera

open Value Spec

/-- What an expression asks for, as the code has it. -/
def methodOf : Wish → Option (Method × Str)
  | .nothing => none
  | .var x => some (.scope, x)
  | .key x => some (.lookup, x)
  | .alias x => some (.alias, x)
  | .strictAlias x => some (.strictAlias, x)
  | .literal x => some (.literal, x)

theorem blanks_iff (t : Str) : emptyInterpolation t = true ↔ t ∈ blanks := by
  simp only [emptyInterpolation, blanks, Bool.or_eq_true, beq_iff_eq, List.mem_cons, List.not_mem_nil, or_false]
  tauto

theorem asks_method {e : Str} {a : Wish} (h : Wishes e a) :
    (emptyInterpolation (trimSpace e) = true ∧ methodOf a = none) ∨
    (emptyInterpolation (trimSpace e) = false ∧ ∃ m, methodOf a = some m ∧ getMethodAndData (trimSpace e) true = .ok m) := by
  have call : ∀ {t fn x : Str} (m : Method), Trimmed e t → Call t fn x → getMethodAndData t true = .ok (m, x) →
      emptyInterpolation (trimSpace e) = false ∧ getMethodAndData (trimSpace e) true = .ok (m, x) := by
    intro t fn x m ht hc hg
    rw [trimmed_unique ht]
    exact ⟨call_not_empty hc, hg⟩
  cases h with
  | nothing h1 h2 => exact .inl ⟨by rw [trimmed_unique h1]; exact (blanks_iff _).2 h2, rfl⟩
  | var h1 h2 h3 =>
    refine .inr ⟨?_, _, rfl, ?_⟩
    · rw [trimmed_unique h1, ← Bool.not_eq_true]
      exact fun h => h2 ((blanks_iff _).1 h)
    · rw [trimmed_unique h1]
      unfold getMethodAndData
      split
      · rename_i m d hm
        exact absurd ((methodMatch_iff _ _ _).1 hm) (h3 m d)
      · rfl
  | scope h1 h2 =>
    obtain ⟨a, b⟩ := call .scope h1 h2 (by unfold getMethodAndData; rw [(methodMatch_iff _ _ _).2 h2]; rfl)
    exact .inr ⟨a, _, rfl, b⟩
  | lookup h1 h2 =>
    obtain ⟨a, b⟩ := call .lookup h1 h2 (by unfold getMethodAndData; rw [(methodMatch_iff _ _ _).2 h2]; rfl)
    exact .inr ⟨a, _, rfl, b⟩
  | hiera h1 h2 =>
    obtain ⟨a, b⟩ := call .lookup h1 h2 (by unfold getMethodAndData; rw [(methodMatch_iff _ _ _).2 h2]; rfl)
    exact .inr ⟨a, _, rfl, b⟩
  | «alias» h1 h2 =>
    obtain ⟨a, b⟩ := call .alias h1 h2 (by unfold getMethodAndData; rw [(methodMatch_iff _ _ _).2 h2]; rfl)
    exact .inr ⟨a, _, rfl, b⟩
  | strictAlias h1 h2 =>
    obtain ⟨a, b⟩ := call .strictAlias h1 h2 (by unfold getMethodAndData; rw [(methodMatch_iff _ _ _).2 h2]; rfl)
    exact .inr ⟨a, _, rfl, b⟩
  | literal h1 h2 =>
    obtain ⟨a, b⟩ := call .literal h1 h2 (by unfold getMethodAndData; rw [(methodMatch_iff _ _ _).2 h2]; rfl)
    exact .inr ⟨a, _, rfl, b⟩

/-- Both are blank, or both are taken for the same. -/
theorem asks_same {e e' : Str} {a : Wish} (h : Wishes e a) (h' : Wishes e' a) :
    emptyInterpolation (trimSpace e) = emptyInterpolation (trimSpace e') ∧
    (emptyInterpolation (trimSpace e) = false → getMethodAndData (trimSpace e) true = getMethodAndData (trimSpace e') true) := by
  rcases asks_method h with ⟨h1, h2⟩ | ⟨h1, m, h2, h3⟩ <;> rcases asks_method h' with ⟨h1', h2'⟩ | ⟨h1', m', h2', h3'⟩
  · exact ⟨h1.trans h1'.symm, fun hf => by rw [h1] at hf; cases hf⟩
  · rw [h2] at h2'; cases h2'
  · rw [h2'] at h2; cases h2
  · rw [h2] at h2'
    cases h2'
    exact ⟨h1.trans h1'.symm, fun _ => h3.trans h3'.symm⟩

section
variable (E : Env) (r : Ref) (C : Ctx)

theorem refPiece_same {e e' : Str} {a : Wish} (h : Wishes e a) (h' : Wishes e' a) : refPiece E r C true e = refPiece E r C true e' := by
  obtain ⟨h1, h2⟩ := asks_same h h'
  unfold refPiece
  rw [← h1]
  split
  · rfl
  · rename_i hf
    rw [h2 (by simpa using hf)]

theorem refText_same {ts ts' : List Tok} (h : List.Forall₂ SamePiece ts ts') : refText E r C true ts = refText E r C true ts' := by
  induction h with
  | nil => rfl
  | @cons t _ _ _ h1 _ ih =>
    cases h1 with
    | same =>
      cases t with
      | chr c => rw [refText, refText, ih]
      | expr e => rw [refText, refText, ih]
    | asks h2 h3 => rw [refText, refText, ih, refPiece_same E r C h2 h3]

theorem aliasOf_same {ts ts' : List Tok} (h : List.Forall₂ SamePiece ts ts') : aliasOf true ts = aliasOf true ts' := by
  cases h with
  | nil => rfl
  | cons h1 h2 =>
    cases h2 with
    | nil =>
      cases h1 with
      | same => rfl
      | asks h3 h4 =>
        obtain ⟨h5, h6⟩ := asks_same h3 h4
        unfold aliasOf
        dsimp only
        rw [← h5]
        split
        · rfl
        · rename_i hf
          rw [h6 (by simpa using hf)]
    | cons h3 h4 =>
      have : ∀ (a b : Tok) (us : List Tok), aliasOf true (a :: b :: us) = none := by
        intro a b us
        cases a <;> rfl
      rw [this, this]

theorem refStr_same {s s' : Str} {ts ts' : List Tok} (hs : Splits s ts) (hs' : Splits s' ts') (h : List.Forall₂ SamePiece ts ts') :
    refStr E r C true s = refStr E r C true s' := by
  unfold refStr
  rw [tokens_eq hs, tokens_eq hs', aliasOf_same h, refText_same E r C h]

end

theorem splits_chars {s : Str} {ts : List Tok} (h : Splits s ts) :
    (∃ cs, ts = cs.map .chr ∧ s = cs) ∨ (Marked s ∧ ∃ e, Tok.expr e ∈ ts) := by
  induction h with
  | nil => exact .inl ⟨[], rfl, rfl⟩
  | @expr e rest ts _ _ _ => exact .inr ⟨⟨[], e ++ '}' :: rest, rfl⟩, e, by simp⟩
  | @chr c rest ts _ _ ih =>
    rcases ih with ⟨cs, rfl, rfl⟩ | ⟨⟨a, b, rfl⟩, e, he⟩
    · exact .inl ⟨c :: rest, rfl, rfl⟩
    · exact .inr ⟨⟨c :: a, b, rfl⟩, e, by simp [he]⟩

theorem samePieces_chars : ∀ {cs : Str} {ts : List Tok}, List.Forall₂ SamePiece (cs.map .chr) ts → ts = cs.map .chr
  | [], _, h => by cases h; rfl
  | c :: cs, _, h => by
    cases h with
    | cons h1 h2 => cases h1; rw [samePieces_chars h2]; rfl

theorem samePieces_expr {ts ts' : List Tok} (h : List.Forall₂ SamePiece ts ts') : (∃ e, Tok.expr e ∈ ts) → ∃ e, Tok.expr e ∈ ts' := by
  induction h with
  | nil => exact id
  | cons h1 _ ih =>
    rintro ⟨e, he⟩
    rcases List.mem_cons.1 he with rfl | he
    · cases h1 with
      | same => exact ⟨e, by simp⟩
      | asks _ _ => exact ⟨_, List.mem_cons_self ..⟩
    · obtain ⟨e', he'⟩ := ih ⟨e, he⟩
      exact ⟨e', List.mem_cons_of_mem _ he'⟩

theorem hasMarker_same {s s' : Str} {ts ts' : List Tok} (hs : Splits s ts) (hs' : Splits s' ts') (h : List.Forall₂ SamePiece ts ts') :
    hasMarker s = hasMarker s' := by
  rcases splits_chars hs with ⟨cs, rfl, rfl⟩ | ⟨h1, h2⟩
  · have := samePieces_chars h
    subst this
    rcases splits_chars hs' with ⟨cs, h3, rfl⟩ | ⟨_, e, he⟩
    · rw [List.map_inj_right (fun _ _ h => by cases h; rfl)] at h3
      rw [h3]
    · simp at he
  · rcases splits_chars hs' with ⟨cs, rfl, rfl⟩ | ⟨h3, _⟩
    · obtain ⟨e, he⟩ := samePieces_expr h h2
      simp at he
    · rw [(hasMarker_iff _).2 h1, (hasMarker_iff _).2 h3]

mutual
theorem marked_same : ∀ {v v' : Value}, Respelled v v' → marked v = marked v'
  | _, _, .same _ => rfl
  | _, _, .str h1 h2 h3 => by rw [marked, marked]; exact hasMarker_same h1 h2 h3
  | _, _, .arr h => by rw [marked, marked]; exact markedL_same h
  | _, _, .map h => by rw [marked, marked]; exact markedE_same h
theorem markedL_same : ∀ {vs vs' : List Value}, RespelledL vs vs' → markedL vs = markedL vs'
  | _, _, .nil => rfl
  | _, _, .cons h1 h2 => by rw [markedL, markedL, marked_same h1, markedL_same h2]
theorem markedE_same : ∀ {es es' : Entries}, RespelledE es es' → markedE es = markedE es'
  | _, _, .nil => rfl
  | _, _, .cons h1 h2 h3 => by rw [markedE, markedE, marked_same h1, marked_same h2, markedE_same h3]
end

theorem unmarked_str {s s' : Str} {ts ts' : List Tok} (hs : Splits s ts) (hs' : Splits s' ts') (h : List.Forall₂ SamePiece ts ts')
    (hm : hasMarker s = false) : s = s' := by
  rcases splits_chars hs with ⟨cs, rfl, rfl⟩ | ⟨h1, h2⟩
  · have := samePieces_chars h
    subst this
    rcases splits_chars hs' with ⟨cs, h3, rfl⟩ | ⟨_, e, he⟩
    · rwa [List.map_inj_right (fun _ _ h => by cases h; rfl)] at h3
    · simp at he
  · rw [(hasMarker_iff _).2 h1] at hm
    cases hm

mutual
theorem unmarked_same : ∀ {v v' : Value}, Respelled v v' → marked v = false → v = v'
  | _, _, .same _, _ => rfl
  | _, _, .str h1 h2 h3, h => by rw [marked] at h; rw [unmarked_str h1 h2 h3 h]
  | _, _, .arr h, h' => by rw [marked] at h'; rw [unmarkedL_same h h']
  | _, _, .map h, h' => by rw [marked] at h'; rw [unmarkedE_same h h']
theorem unmarkedL_same : ∀ {vs vs' : List Value}, RespelledL vs vs' → markedL vs = false → vs = vs'
  | _, _, .nil, _ => rfl
  | _, _, .cons h1 h2, h => by
    rw [markedL, Bool.or_eq_false_iff] at h
    rw [unmarked_same h1 h.1, unmarkedL_same h2 h.2]
theorem unmarkedE_same : ∀ {es es' : Entries}, RespelledE es es' → markedE es = false → es = es'
  | _, _, .nil, _ => rfl
  | _, _, .cons h1 h2 h3, h => by
    rw [markedE, Bool.or_eq_false_iff, Bool.or_eq_false_iff] at h
    rw [unmarked_same h1 h.1.1, unmarked_same h2 h.1.2, unmarkedE_same h3 h.2]
end

section
variable (E : Env) (r : Ref) (C : Ctx)

mutual
/-- What a value becomes does not depend on how the expressions in it are written. -/
theorem refInterp_same : ∀ {v v' : Value}, Respelled v v' → refInterp E r C true v = refInterp E r C true v'
  | _, _, .same _ => rfl
  | _, _, .str h1 h2 h3 => by rw [refInterp, refInterp]; exact refStr_same E r C h1 h2 h3
  | _, _, .arr h => by rw [refInterp, refInterp, refList_same h]
  | _, _, .map h => by
    rw [refInterp, refInterp, ← markedE_same h]
    split
    · rw [refEntries_same h]
    · rename_i hm
      rw [unmarkedE_same h (by simpa using hm)]
theorem refList_same : ∀ {vs vs' : List Value}, RespelledL vs vs' → refList E r C true vs = refList E r C true vs'
  | _, _, .nil => rfl
  | _, _, .cons h1 h2 => by rw [refList, refList, refInterp_same h1, refList_same h2]
theorem refEntries_same : ∀ {es es' : Entries}, RespelledE es es' → ∀ {cp : Entries}, refEntries E r C true cp es = refEntries E r C true cp es'
  | _, _, .nil, _ => rfl
  | _, _, .cons h1 h2 h3, _ => by
    rw [refEntries, refEntries, refInterp_same h1, refInterp_same h2]
    simp only [refEntries_same h3]
end
end

end Hiera
