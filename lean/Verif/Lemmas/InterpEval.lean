/- Lemmas about the evaluation of interpolations. -/
import Verif.Lemmas.Interp
import Verif.Lemmas.Quiet

set_option linter.unusedSimpArgs false

set_option autoImplicit false

namespace Hiera
open Spec

theorem M.pure_bind {α β : Type} (a : α) (f : α → M β) : (pure a >>= f : M β) = f a := rfl

theorem M.bind_assoc {α β γ : Type} (m : M α) (f : α → M β) (g : β → M γ) :
    (m >>= f) >>= g = m >>= fun a => f a >>= g := by
  funext s
  simp only [bind_def]
  cases m s with
  | none => rfl
  | some o => rcases o with ⟨_ | _, t⟩ <;> rfl

theorem M.bind_pure {α : Type} (m : M α) : (m >>= fun a => pure a) = m := by
  funext s
  simp only [bind_def]
  cases m s with
  | none => rfl
  | some o => rcases o with ⟨_ | _, t⟩ <;> rfl

theorem M.lift_ok_bind {α β : Type} (a : α) (f : α → M β) : (lift (.ok a) >>= f : M β) = f a := rfl
theorem M.panic_bind {α β : Type} (e : Err) (f : α → M β) : (panic e >>= f : M β) = panic e := rfl
theorem M.lift_panic_bind {α β : Type} (e : Err) (f : α → M β) : (lift (.panic e) >>= f : M β) = panic e := rfl

/-! ### Values without markers -/

theorem interpStr_unmarked (E : Env) (rec : Rec) (a : Bool) {s : Str} (h : ¬Marked s) :
    interpStr E rec s a = pure (some (.str s), false) := by
  unfold interpStr
  rw [if_neg (fun hm => h ((hasMarker_iff s).1 hm))]

mutual
theorem interp_plain (E : Env) (rec : Rec) (a : Bool) {v : Value} (h : Plain v) :
    interp E rec a v = pure (some v, false) := by
  cases h with
  | str h => rw [interp]; exact interpStr_unmarked E rec a h
  | arr h =>
    rw [interp, interpList_plain E rec a h, M.pure_bind]
    rfl
  | map h =>
    obtain ⟨cp, hcp⟩ := interpMap_plain E rec a [] h
    rw [interp, hcp, M.pure_bind]
    rfl
  | null => simp only [interp]
  | bool => simp only [interp]
  | int => simp only [interp]
  | sensitive => simp only [interp]
  | «opaque» => simp only [interp]
theorem interpList_plain (E : Env) (rec : Rec) (a : Bool) {vs : List Value} (h : PlainL vs) :
    interpList E rec a vs = pure (vs, false) := by
  cases h with
  | nil => rw [interpList]
  | cons h hs =>
    rw [interpList, interp_plain E rec a h, M.pure_bind, interpList_plain E rec a hs, M.pure_bind]
    rfl
theorem interpMap_plain (E : Env) (rec : Rec) (a : Bool) (cp : Entries) {es : List (Value × Value)} (h : PlainE es) :
    ∃ cp', interpMap E rec a cp es = pure (cp', false) := by
  cases h with
  | nil => exact ⟨cp, by rw [interpMap]⟩
  | cons hk hv hs =>
    obtain ⟨cp', hcp⟩ := interpMap_plain E rec a (Entries.put cp _ _) hs
    refine ⟨cp', ?_⟩
    rw [interpMap, interp_plain E rec a hk, M.pure_bind, interp_plain E rec a hv, M.pure_bind]
    simp only [Option.getD_some]
    rw [hcp, M.pure_bind]
    rfl
end

theorem interpolate_plain (E : Env) (rec : Rec) (a : Bool) {v : Value} (h : Plain v) :
    interpolate E rec a v = pure (some v) := by
  unfold interpolate
  rw [interp_plain E rec a h, M.pure_bind]
  rfl

/-! ### The text of an expression -/

/-- The text of an expression that is not an alias. -/
def exprOut (E : Env) (rec : Rec) (allow : Bool) (e : Str) : M Str :=
  if emptyInterpolation (trimSpace e) then pure []
  else do
    let md ← lift (getMethodAndData (trimSpace e) allow)
    match md.1 with
    | .literal => pure md.2
    | .scope => do
      let v ← interpInScope rec md.2 allow
      pure (E.textOf v)
    | _ => do
      let k ← lift (newKey md.2)
      let v ← rec.lookup k []
      pure (E.textOf v)

/-- The text of a sequence of tokens. -/
def outs (E : Env) (rec : Rec) (allow : Bool) : List Tok → M Str
  | [] => pure []
  | .chr c :: ts => do
    let r ← outs E rec allow ts
    pure (c :: r)
  | .expr e :: ts => do
    let t ← exprOut E rec allow e
    let r ← outs E rec allow ts
    pure (t ++ r)

theorem call_of_alias {e x : Str} {allow : Bool} {md : Method × Str} (hx : Trimmed e x)
    (h : getMethodAndData x allow = .ok md) (ha : md.1.isAlias = true) : AliasCall e := by
  unfold getMethodAndData at h
  cases hm : methodMatch x with
  | none => rw [hm] at h; cases h; cases ha
  | some p =>
    obtain ⟨n, d⟩ := p
    rw [hm] at h
    have hc := (methodMatch_iff _ _ _).1 hm
    simp only at h
    cases allow with
    | false => cases h
    | true =>
      simp only [Bool.not_true, Bool.false_eq_true, if_false] at h
      by_cases h1 : n = "alias".toList
      · exact ⟨x, n, d, hx, hc, .inl h1⟩
      · rw [if_neg h1] at h
        by_cases h2 : n = "strict_alias".toList
        · exact ⟨x, n, d, hx, hc, .inr h2⟩
        · rw [if_neg h2] at h
          by_cases h3 : n = "hiera".toList ∨ n = "lookup".toList
          · rw [if_pos h3] at h; cases h; cases ha
          · rw [if_neg h3] at h
            by_cases h4 : n = "literal".toList
            · rw [if_pos h4] at h; cases h; cases ha
            · rw [if_neg h4] at h
              by_cases h5 : n = "scope".toList
              · rw [if_pos h5] at h; cases h; cases ha
              · rw [if_neg h5] at h; cases h

/-- What `interpExpr` does for an expression that is not an alias. -/
theorem interpExpr_eq (E : Env) (rec : Rec) (str : Str) (allow : Bool) {e : Str} (he : ¬AliasCall e) :
    ∃ f : Method → Method, (∀ m, m ≠ .strictAlias → f m ≠ .strictAlias) ∧ ∀ st : IplState,
      interpExpr E rec str allow e st = (do
        let t ← exprOut E rec allow e
        pure { st with out := st.out ++ t, method := f st.method }) := by
  unfold interpExpr exprOut
  by_cases h0 : emptyInterpolation (trimSpace e) = true
  · refine ⟨id, fun _ h => h, fun st => ?_⟩
    simp only [h0, if_true, M.pure_bind, List.append_nil, id]
  · simp only [h0, if_false, Bool.false_eq_true]
    cases hg : getMethodAndData (trimSpace e) allow with
    | panic er => exact ⟨id, fun _ h => h, fun st => rfl⟩
    | ok md =>
      have ha : md.1.isAlias = false := by
        cases ha : md.1.isAlias with
        | false => rfl
        | true => exact absurd (call_of_alias (trimSpace_trimmed e) hg ha) he
      refine ⟨fun _ => md.1, fun _ _ h => (by simp only at h; rw [h] at ha; cases ha), fun st => ?_⟩
      simp only [M.lift_ok_bind]
      rw [if_neg (by rw [ha]; simp)]
      obtain ⟨m, d⟩ := md
      cases m
      · simp only [M.bind_assoc, M.pure_bind]
      · cases ha
      · cases ha
      · simp only [M.bind_assoc, M.pure_bind, Method.isAlias, Bool.false_eq_true, if_false]
      · rfl

theorem interpToks_eq (E : Env) (rec : Rec) (str : Str) (allow : Bool) (ts : List Tok)
    (hts : ∀ e, Tok.expr e ∈ ts → ¬AliasCall e) (st : IplState) (hr : st.result = none) (hm : st.method ≠ .strictAlias) :
    (do let st' ← interpToks E rec str allow ts st
        pure st'.finish) = (do
        let t ← outs E rec allow ts
        pure (some (.str (st.out ++ t)))) := by
  induction ts generalizing st with
  | nil =>
    simp only [interpToks, outs, M.pure_bind, IplState.finish, hr, Option.isNone_none, true_and, List.append_nil]
    rw [if_pos hm]
  | cons t ts ih =>
    have ih' := fun st hr hm => ih (fun e he => hts e (List.mem_cons_of_mem _ he)) st hr hm
    cases t with
    | chr c =>
      rw [interpToks, ih' { st with out := st.out ++ [c] } hr hm, outs, M.bind_assoc]
      simp only [M.pure_bind, List.append_assoc, List.singleton_append]
    | expr e =>
      obtain ⟨f, hf, heq⟩ := interpExpr_eq E rec str allow (hts e (by simp))
      rw [interpToks, heq st, outs]
      simp only [M.bind_assoc, M.pure_bind]
      congr 1
      funext t
      rw [ih' { st with out := st.out ++ t, method := f st.method } hr (hf _ hm)]
      simp only [List.append_assoc]

/-- Interpolating a string without aliases, with no explainer. -/
theorem interpolate_str (E : Env) (rec : Rec) (allow : Bool) {s : Str} {ts : List Tok} (hs : Splits s ts)
    (hts : ∀ e, Tok.expr e ∈ ts → ¬AliasCall e) {st : St} (ho : st.on = none) :
    interpolate E rec allow (.str s) st = (do
      let t ← outs E rec allow ts
      pure (some (.str t)) : M (Option Value)) st := by
  unfold interpolate interp interpStr
  by_cases hm : hasMarker s = true
  · rw [if_pos hm]
    simp only [M.bind_assoc, M.pure_bind, if_true]
    rw [M.bind_pure, Quiet.off_withNode ho, interpToks_eq E rec s allow _ _ {} rfl (by simp)]
    · rw [tokens_eq hs]; rfl
    · rw [tokens_eq hs]; exact hts
  · rw [if_neg hm]
    have hu : ¬Marked s := fun h => hm ((hasMarker_iff s).2 h)
    have := splits_unique hs (splits_unmarked hu)
    subst this
    have hout : ∀ s : Str, outs E rec allow (s.map .chr) = pure s := by
      intro s
      induction s with
      | nil => rfl
      | cons c cs ih => rw [List.map_cons, outs, ih, M.pure_bind]
    rw [hout]
    rfl

theorem splits_single {e : Str} (h : '}' ∉ e) : Splits ('%' :: '{' :: e ++ ['}']) [.expr e] := .expr h .nil

theorem splits_mem_close {s : Str} {ts : List Tok} (h : Splits s ts) {e : Str} (he : Tok.expr e ∈ ts) : '}' ∉ e := by
  induction h with
  | nil => cases he
  | expr h1 h2 ih =>
    rcases List.mem_cons.1 he with h | h
    · cases h; exact h1
    · exact ih h
  | chr _ _ ih =>
    rcases List.mem_cons.1 he with h | h
    · cases h
    · exact ih h

/-- An expression on its own. -/
theorem interpolate_single (E : Env) (rec : Rec) (allow : Bool) {e : Str} (hc : '}' ∉ e) (he : ¬AliasCall e) {st : St}
    (ho : st.on = none) :
    interpolate E rec allow (.str ('%' :: '{' :: e ++ ['}'])) st = (do
      let t ← exprOut E rec allow e
      pure (some (.str t)) : M (Option Value)) st := by
  rw [interpolate_str E rec allow (splits_single hc) (by intro e' h; simp at h; subst h; exact he) ho]
  simp only [outs, M.bind_assoc, M.pure_bind, List.append_nil]

/-! ### Digging without an explainer -/

theorem digLoop_quiet (ps : List Part) (v : Value) (s : St) (ho : s.on = none) :
    digLoop ps (some v) s = some (.ok (digParts ps v), s) := by
  induction ps generalizing v with
  | nil => rfl
  | cons p ps ih =>
    unfold digLoop digParts
    rw [bind_def, Quiet.off_withNode ho]
    unfold digSeg
    rw [Option.bind_some]
    cases hd : digSegment p v with
    | none => simp only [bind_def, Quiet.off_report ho, pure_def]
    | some w => simp only [bind_def, Quiet.off_report ho, pure_def]; exact ih w

theorem dig_quiet (k : Key) (v : Value) (s : St) (ho : s.on = none) : dig k (some v) s = some (.ok (k.digPure v), s) := by
  unfold dig Key.digPure
  by_cases h : k.parts.length = 1
  · rw [if_pos h]
    have : k.parts.tail = [] := by
      match hp : k.parts, h with
      | [p], _ => rfl
    rw [this]; rfl
  · rw [if_neg h, Quiet.off_withNode ho, digLoop_quiet _ _ _ ho]

theorem digLoop_none (ps : List Part) (s : St) (ho : s.on = none) :
    digLoop ps none s = some (.ok none, s) := by
  cases ps with
  | nil => rfl
  | cons p ps =>
    unfold digLoop
    rw [bind_def, Quiet.off_withNode ho]
    unfold digSeg
    simp only [Option.bind_none, bind_def, Quiet.off_report ho, pure_def]

theorem dig_none (k : Key) (s : St) (ho : s.on = none) : dig k none s = some (.ok none, s) := by
  unfold dig
  by_cases h : k.parts.length = 1
  · rw [if_pos h]; rfl
  · rw [if_neg h, Quiet.off_withNode ho, digLoop_none _ _ ho]

end Hiera
