/- Data that refers to variables and other keys (`Spec/Referring.lean`), and the reference semantics. -/
import Verif.Spec.Referring
import Verif.Props.Ordinary

set_option autoImplicit false

namespace Hiera

open Value Spec

/-! ### Expressions -/

section
variable {x : Str} {fs : List Str} (hx : RefPart x) (hf : ∀ f ∈ fs, RefPart f)
include hx hf

theorem ref_parts : ∀ y ∈ x :: fs, RefPart y := fun y hy => by
  rcases List.mem_cons.1 hy with rfl | hy
  · exact hx
  · exact hf y hy

theorem not_in_ref {c : Char} (hd : c ≠ '.') (h : ∀ y, RefPart y → c ∉ y) : c ∉ joinDots (x :: fs) := by
  intro hc
  rcases joinDots_mem hc with h1 | ⟨y, hy, h1⟩
  · exact hd h1
  · exact h y (ref_parts hx hf y hy) h1

theorem ref_no_brace : '}' ∉ joinDots (x :: fs) := not_in_ref hx hf (by decide) (fun _ h => h.2)

theorem ref_no_quote : '\'' ∉ joinDots (x :: fs) := not_in_ref hx hf (by decide) (fun _ h hc => (h.1.1 _ hc).1 rfl)

theorem ref_ne : joinDots (x :: fs) ≠ [] := by
  have := hx.1.2.1
  cases fs with
  | nil => exact this
  | cons f fs => simp [joinDots]

theorem ref_key : newKey (joinDots (x :: fs)) = .ok ⟨joinDots (x :: fs), .name x :: fs.map .name⟩ :=
  segments_key (by simp) (fun y hy => (ref_parts hx hf y hy).1)

/-- A call of a function with a key, as it is written in an expression. -/
theorem ref_call {fn : Str} (hn : fn ≠ []) (hw : ∀ c ∈ fn, c.isAlphanum = true ∨ c = '_') :
    Call (called fn (joinDots (x :: fs))) fn (joinDots (x :: fs)) :=
  ⟨hn, hw, ref_ne hx hf, '\'', .inl rfl, ref_no_quote hx hf, rfl⟩
end

theorem call_trimmed {fn arg : Str} {c : Char} {cs : Str} (hc : fn = c :: cs) (hs : isSpace c = false) :
    trimSpace (called fn arg) = called fn arg := by
  unfold called
  refine trimmed_unique ⟨⟨[], [], by simp, by simp, by simp⟩, fun d hd => ?_, fun d hd => ?_⟩
  · subst hc
    simp at hd
    exact (isSpace_false_iff d).1 (hd ▸ hs)
  · have : (fn ++ '(' :: '\'' :: arg ++ ['\'', ')']).getLast? = some ')' := by simp [List.getLast?_append, List.getLast?_cons]
    rw [this] at hd
    cases hd
    exact (isSpace_false_iff _).1 (by decide)

theorem lookup_method {x : Str} {fs : List Str} (hx : RefPart x) (hf : ∀ f ∈ fs, RefPart f) :
    getMethodAndData (called "lookup".toList (joinDots (x :: fs))) true = .ok (.lookup, joinDots (x :: fs)) := by
  unfold getMethodAndData
  rw [(methodMatch_iff _ _ _).2 (ref_call hx hf (fn := "lookup".toList) (by decide) (by decide))]
  rfl

theorem alias_method {x : Str} {fs : List Str} (hx : RefPart x) (hf : ∀ f ∈ fs, RefPart f) :
    getMethodAndData (called "alias".toList (joinDots (x :: fs))) true = .ok (.alias, joinDots (x :: fs)) := by
  unfold getMethodAndData
  rw [(methodMatch_iff _ _ _).2 (ref_call hx hf (fn := "alias".toList) (by decide) (by decide))]
  rfl

/-! ### Pieces -/

def Spec.DataPiece.toks : DataPiece → List Tok
  | .text t => t.map .chr
  | .var x fs => [.expr (joinDots (x :: fs))]
  | .key x fs => [.expr (called "lookup".toList (joinDots (x :: fs)))]

theorem no_brace_call {fn arg : Str} (h : '}' ∉ fn) (h' : '}' ∉ arg) : '}' ∉ called fn arg := by
  simp [called, h, h']

theorem braces_append (e u : Str) : braces e ++ u = '%' :: '{' :: e ++ '}' :: u := by
  simp [braces]

theorem data_splits : ∀ (ps : List DataPiece), (∀ p ∈ ps, p.Ok) → Splits (ps.flatMap DataPiece.written) (ps.flatMap DataPiece.toks)
  | [], _ => .nil
  | .text t :: ps, h => by
    have ih := data_splits ps (fun p hp => h p (List.mem_cons_of_mem _ hp))
    have ht : '%' ∉ t := h (.text t) (List.mem_cons_self ..)
    rw [List.flatMap_cons, List.flatMap_cons]
    exact text_splits ht ih
  | .var x fs :: ps, h => by
    have ih := data_splits ps (fun p hp => h p (List.mem_cons_of_mem _ hp))
    obtain ⟨h1, h2⟩ := h (.var x fs) (List.mem_cons_self ..)
    have := Splits.expr (not_in_dots h1 h2 (c := '}') (by decide) (by decide) (by decide)) ih
    rw [List.flatMap_cons, List.flatMap_cons, DataPiece.written, braces_append]
    exact this
  | .key x fs :: ps, h => by
    have ih := data_splits ps (fun p hp => h p (List.mem_cons_of_mem _ hp))
    obtain ⟨h1, h2⟩ := h (.key x fs) (List.mem_cons_self ..)
    have := Splits.expr (no_brace_call (fn := "lookup".toList) (by decide) (ref_no_brace h1 h2)) ih
    rw [List.flatMap_cons, List.flatMap_cons, DataPiece.written, braces_append]
    exact this

theorem alias_splits {x : Str} {fs : List Str} (hx : RefPart x) (hf : ∀ f ∈ fs, RefPart f) :
    Splits (braces (called "alias".toList (joinDots (x :: fs)))) [.expr (called "alias".toList (joinDots (x :: fs)))] := by
  have := Splits.expr (no_brace_call (fn := "alias".toList) (by decide) (ref_no_brace hx hf)) .nil
  exact this

theorem piece_aliasOf {p : DataPiece} (hp : p.Ok) : ∀ e, Tok.expr e ∈ p.toks → aliasOf true [.expr e] = none := by
  intro e he
  match p, hp, he with
  | .text t, _, he => simp [DataPiece.toks] at he
  | .var x fs, ⟨h1, h2⟩, he =>
    simp only [DataPiece.toks, List.mem_singleton, Tok.expr.injEq] at he
    subst he
    unfold aliasOf
    dsimp only
    rw [dots_trimmed h1 h2, dots_not_empty h1 h2, dots_method h1 h2]
    rfl
  | .key x fs, ⟨h1, h2⟩, he =>
    simp only [DataPiece.toks, List.mem_singleton, Tok.expr.injEq] at he
    subst he
    unfold aliasOf
    dsimp only
    rw [call_trimmed (fn := "lookup".toList) (c := 'l') rfl (by decide), call_not_empty (ref_call h1 h2 (by decide) (by decide)), lookup_method h1 h2]
    rfl

theorem pieces_aliasOf {ps : List DataPiece} (h : ∀ p ∈ ps, p.Ok) : aliasOf true (ps.flatMap DataPiece.toks) = none := by
  match hts : ps.flatMap DataPiece.toks with
  | [] => rfl
  | .chr _ :: _ => rfl
  | .expr e :: _ :: _ => rfl
  | [.expr e] =>
    have : Tok.expr e ∈ ps.flatMap DataPiece.toks := by rw [hts]; simp
    obtain ⟨p, hp, he⟩ := List.mem_flatMap.1 this
    exact piece_aliasOf (h p hp) e he

/-! ### Values without percent signs -/

theorem noPercent_unmarked {v : Value} (h : NoPercent v) : Unmarked v := fun s hs ⟨a, b, e⟩ => h s hs (by rw [e]; simp)

theorem noPercent_marked {v : Value} (h : NoPercent v) : marked v = false := unmarked_iff (noPercent_unmarked h)

theorem noPercent_field : ∀ (fs : List Str) {v w : Value}, NoPercent v → fieldOf fs v = some w → NoPercent w
  | [], _, _, h, e => by cases e; exact h
  | f :: fs, .map es, w, h, e => by
    rw [fieldOf] at e
    cases hg : Entries.getS es f with
    | none => rw [hg] at e; cases e
    | some u => rw [hg] at e; exact noPercent_field fs (clean_getS h hg) e
  | f :: fs, .arr _, _, _, e => by simp [fieldOf] at e
  | f :: fs, .null, _, _, e => by simp [fieldOf] at e
  | f :: fs, .bool _, _, _, e => by simp [fieldOf] at e
  | f :: fs, .int _, _, _, e => by simp [fieldOf] at e
  | f :: fs, .str _, _, _, e => by simp [fieldOf] at e
  | f :: fs, .sensitive _, _, _, e => by simp [fieldOf] at e
  | f :: fs, .opaque _, _, _, e => by simp [fieldOf] at e

theorem wf_field : ∀ (fs : List Str) {v w : Value}, WF v → fieldOf fs v = some w → WF w
  | [], _, _, h, e => by cases e; exact h
  | f :: fs, .map es, w, h, e => by
    rw [fieldOf] at e
    cases hg : Entries.getS es f with
    | none => rw [hg] at e; cases e
    | some u => rw [hg] at e; exact wf_field fs (Entries.WF_of_get h hg) e
  | f :: fs, .arr _, _, _, e => by simp [fieldOf] at e
  | f :: fs, .null, _, _, e => by simp [fieldOf] at e
  | f :: fs, .bool _, _, _, e => by simp [fieldOf] at e
  | f :: fs, .int _, _, _, e => by simp [fieldOf] at e
  | f :: fs, .str _, _, _, e => by simp [fieldOf] at e
  | f :: fs, .sensitive _, _, _, e => by simp [fieldOf] at e
  | f :: fs, .opaque _, _, _, e => by simp [fieldOf] at e

theorem textIn_eq (E : Env) (v : Option Value) : E.textOf v = textIn E v := by
  match v with
  | none => rfl
  | some w => cases w <;> rfl

theorem textIn_noPercent {E : Env} (hr : ∀ v, NoPercent v → '%' ∉ E.render v) {v : Option Value} (h : ∀ w, v = some w → NoPercent w) :
    '%' ∉ textIn E v := by
  match v, h with
  | none, _ => simp [textIn]
  | some (.str t), h => exact (h _ rfl) t (.str)
  | some .null, h => exact hr _ (h _ rfl)
  | some (.bool _), h => exact hr _ (h _ rfl)
  | some (.int _), h => exact hr _ (h _ rfl)
  | some (.arr _), h => exact hr _ (h _ rfl)
  | some (.map _), h => exact hr _ (h _ rfl)
  | some (.sensitive _), h => exact hr _ (h _ rfl)
  | some (.opaque _), h => exact hr _ (h _ rfl)

/-! ### What data means -/

/-- Nested lookups of a key give an answer. -/
def Answers (E : Env) (sc : Scope) (ls : List Sheet) (r : Ref) (key : Str) (v : Option Value) : Prop :=
  Answered E sc ls key [] v ∧ (∀ w, v = some w → NoPercent w ∧ WF w) ∧
  ∀ C : Ctx, C.scope = sc → ∀ (src : Str) (fs : List Str), r.lookup C ⟨src, .name key :: fs.map .name⟩ [] = pure (v.bind (fieldOf fs))

section
variable (E : Env) (sc : Scope) (ans : Str → Option Value)

/-- The text that pieces stand for, if the other keys have the given answers. -/
def textValue : List DataPiece → Str
  | [] => []
  | .text t :: ps => t ++ textValue ps
  | .var x fs :: ps => textIn E ((sc.get x).bind (fieldOf fs)) ++ textValue ps
  | .key x fs :: ps => textIn E ((ans x).bind (fieldOf fs)) ++ textValue ps

mutual
/-- The value that data stands for, if the other keys have the given answers. -/
def valueT : Template → Value
  | .plain v => v
  | .text ps => .str (textValue E sc ans ps)
  | .alias x fs => ((ans x).bind (fieldOf fs)).getD (.str [])
  | .arr ts => .arr (valueL ts)
  | .map es => .map (valueE es)
def valueL : List Template → List Value
  | [] => []
  | t :: ts => valueT t :: valueL ts
def valueE : List (Str × Template) → Entries
  | [] => []
  | (k, t) :: es => (.str k, valueT t) :: valueE es
end
end

section
variable {E : Env} {sc : Scope} {ls : List Sheet} {ans : Str → Option Value} {r : Ref} {C : Ctx}
  (hren : ∀ v, NoPercent v → '%' ∉ E.render v) (hi : ∀ v, NoPercent v → r.interp C true v = pure (some v)) (hC : C.scope = sc)
include hren hi hC

theorem var_meant {x : Str} {fs : List Str} (h : DataPiece.Ok (.var x fs)) (hv : ∀ v, sc.get x = some v → NoPercent v) :
    refPiece E r C true (joinDots (x :: fs)) = pure (textIn E ((sc.get x).bind (fieldOf fs))) ∧
    '%' ∉ textIn E ((sc.get x).bind (fieldOf fs)) := by
  obtain ⟨h1, h2⟩ := h
  refine ⟨?_, textIn_noPercent hren (fun w hw => ?_)⟩
  · unfold refPiece
    rw [dots_trimmed h1 h2, dots_not_empty h1 h2, dots_method h1 h2]
    simp only [Bool.false_eq_true, if_false, Ans.of_ok_bind]
    unfold refVar
    rw [dots_key h1 h2, Ans.of_ok_bind, hC]
    have hr : Key.root ⟨joinDots (x :: fs), (x :: fs).map .name⟩ = x := rfl
    simp only [hr]
    cases hg : sc.get x with
    | none => rfl
    | some v =>
      simp only
      rw [hi v (hv v hg)]
      show (pure (E.textOf (digParts (fs.map .name) v)) : Ans Str) = _
      rw [digParts_fields, textIn_eq]
      rfl
  · cases hg : sc.get x with
    | none => rw [hg] at hw; cases hw
    | some v => rw [hg] at hw; exact noPercent_field fs (hv v hg) hw

omit hi in
theorem key_meant {x : Str} {fs : List Str} (h : DataPiece.Ok (.key x fs)) {v : Option Value} (ha : Answers E sc ls r x v) :
    refPiece E r C true (called "lookup".toList (joinDots (x :: fs))) = pure (textIn E (v.bind (fieldOf fs))) ∧
    '%' ∉ textIn E (v.bind (fieldOf fs)) := by
  obtain ⟨h1, h2⟩ := h
  obtain ⟨_, a2, a3⟩ := ha
  refine ⟨?_, textIn_noPercent hren (fun w hw => ?_)⟩
  · unfold refPiece
    rw [call_trimmed (fn := "lookup".toList) (c := 'l') rfl (by decide), call_not_empty (ref_call h1 h2 (by decide) (by decide)), lookup_method h1 h2]
    simp only [Bool.false_eq_true, if_false, Ans.of_ok_bind]
    unfold refLook
    rw [ref_key h1 h2, Ans.of_ok_bind, a3 C hC, Ans.pure_bind, textIn_eq]
  · cases v with
    | none => cases hw
    | some u => exact noPercent_field fs (a2 u rfl).1 hw

theorem text_meant : ∀ ps : List DataPiece, (∀ p ∈ ps, p.Ok) → (∀ x fs, DataPiece.var x fs ∈ ps → ∀ v, sc.get x = some v → NoPercent v) →
    (∀ x fs, DataPiece.key x fs ∈ ps → Answers E sc ls r x (ans x)) →
    MeantText E sc ls ps (textValue E sc ans ps) ∧ refText E r C true (ps.flatMap DataPiece.toks) = pure (textValue E sc ans ps) ∧
      '%' ∉ textValue E sc ans ps
  | [], _, _, _ => ⟨.nil, rfl, by simp [textValue]⟩
  | .text t :: ps, h, hv, hk => by
    obtain ⟨h1, h2, h3⟩ := text_meant ps (fun p hp => h p (List.mem_cons_of_mem _ hp)) (fun x fs hx => hv x fs (List.mem_cons_of_mem _ hx))
      (fun x fs hx => hk x fs (List.mem_cons_of_mem _ hx))
    have ht : '%' ∉ t := h (.text t) (List.mem_cons_self ..)
    refine ⟨.text h1, ?_, by simp [textValue, ht, h3]⟩
    rw [List.flatMap_cons]
    exact refText_text true t h2
  | .var x fs :: ps, h, hv, hk => by
    obtain ⟨h1, h2, h3⟩ := text_meant ps (fun p hp => h p (List.mem_cons_of_mem _ hp)) (fun x fs hx => hv x fs (List.mem_cons_of_mem _ hx))
      (fun x fs hx => hk x fs (List.mem_cons_of_mem _ hx))
    obtain ⟨a1, a2⟩ := var_meant hren hi hC (h (.var x fs) (List.mem_cons_self ..)) (hv x fs (List.mem_cons_self ..))
    refine ⟨.var h1, ?_, fun hm => (List.mem_append.1 hm).elim a2 h3⟩
    rw [List.flatMap_cons]
    show refText E r C true (.expr (joinDots (x :: fs)) :: ps.flatMap DataPiece.toks) = _
    rw [refText, a1, Ans.pure_bind, h2]
    rfl
  | .key x fs :: ps, h, hv, hk => by
    obtain ⟨h1, h2, h3⟩ := text_meant ps (fun p hp => h p (List.mem_cons_of_mem _ hp)) (fun x fs hx => hv x fs (List.mem_cons_of_mem _ hx))
      (fun x fs hx => hk x fs (List.mem_cons_of_mem _ hx))
    obtain ⟨a1, a2⟩ := key_meant hren hC (h (.key x fs) (List.mem_cons_self ..)) (hk x fs (List.mem_cons_self ..))
    refine ⟨.key (hk x fs (List.mem_cons_self ..)).1 h1, ?_, fun hm => (List.mem_append.1 hm).elim a2 h3⟩
    rw [List.flatMap_cons]
    show refText E r C true (.expr (called "lookup".toList (joinDots (x :: fs))) :: ps.flatMap DataPiece.toks) = _
    rw [refText, a1, Ans.pure_bind, h2]
    rfl

omit hi hren in
theorem alias_meant {x : Str} {fs : List Str} (h : DataPiece.Ok (.key x fs)) {v : Option Value} (ha : Answers E sc ls r x v) :
    refStr E r C true (braces (called "alias".toList (joinDots (x :: fs)))) = pure (some ((v.bind (fieldOf fs)).getD (.str []))) := by
  obtain ⟨h1, h2⟩ := h
  obtain ⟨_, _, a3⟩ := ha
  have e : aliasOf true [.expr (called "alias".toList (joinDots (x :: fs)))] = some (.alias, joinDots (x :: fs)) := by
    unfold aliasOf
    dsimp only
    rw [call_trimmed (fn := "alias".toList) (c := 'a') rfl (by decide), call_not_empty (ref_call h1 h2 (by decide) (by decide)), alias_method h1 h2]
    rfl
  unfold refStr
  rw [tokens_eq (alias_splits h1 h2), e]
  dsimp only
  unfold refLook
  rw [ref_key h1 h2, Ans.of_ok_bind, a3 C hC, Ans.pure_bind]

mutual
theorem template_meant : ∀ t : Template, t.Ok → (∀ x fs, DataPiece.var x fs ∈ t.uses → ∀ v, sc.get x = some v → NoPercent v) →
    (∀ x fs, DataPiece.key x fs ∈ t.uses → Answers E sc ls r x (ans x)) →
    Meant E sc ls t (valueT E sc ans t) ∧ (NoPercent (valueT E sc ans t) ∧ WF (valueT E sc ans t)) ∧
      refInterp E r C true t.written = pure (some (valueT E sc ans t))
  | .plain v, h, _, _ => by
    rw [Template.Ok] at h
    rw [valueT]
    refine ⟨.plain, h, ?_⟩
    rw [Template.written]
    exact refInterp_unmarked true (noPercent_marked h.1)
  | .text ps, h, hv, hk => by
    rw [Template.Ok] at h
    rw [Template.uses] at hv hk
    obtain ⟨h1, h2, h3⟩ := text_meant hren hi hC ps h hv hk
    rw [valueT]
    refine ⟨.text h1, ⟨clean_str.2 h3, by simp⟩, ?_⟩
    rw [Template.written, refInterp]
    unfold refStr
    rw [tokens_eq (data_splits ps h), pieces_aliasOf h]
    dsimp only
    rw [h2, Ans.pure_bind]
  | .alias x fs, h, hv, hk => by
    rw [Template.Ok] at h
    rw [Template.uses] at hk
    have hx := hk x fs (by simp)
    have a3 := alias_meant hC h hx
    obtain ⟨a1, a2, _⟩ := hx
    rw [valueT]
    generalize ans x = v at a1 a2 a3 ⊢
    refine ⟨.alias a1, ?_, ?_⟩
    · cases hb : v.bind (fieldOf fs) with
      | none => exact ⟨clean_str.2 (by simp), by simp⟩
      | some w =>
        cases v with
        | none => cases hb
        | some u =>
          obtain ⟨b1, b2⟩ := a2 u rfl
          exact ⟨noPercent_field fs b1 hb, wf_field fs b2 hb⟩
    · rw [Template.written, refInterp]
      exact a3
  | .arr ts, h, hv, hk => by
    rw [Template.Ok] at h
    rw [Template.uses] at hv hk
    obtain ⟨h1, h2, h3⟩ := templates_meant ts h hv hk
    rw [valueT]
    refine ⟨.arr h1, ⟨clean_arr.2 (fun v hv => (h2 v hv).1), WF_arr.2 (fun v hv => (h2 v hv).2)⟩, ?_⟩
    rw [Template.written, refInterp, h3]
    rfl
  | .map es, h, hv, hk => by
    rw [Template.Ok] at h
    rw [Template.uses] at hv hk
    obtain ⟨h1, h2, h3, h4, h5⟩ := entries_meant es h.1 hv hk
    rw [valueT]
    generalize valueE E sc ans es = vs at h1 h2 h3 h4 h5 ⊢
    have hu : UniqueKeys vs := by
      have : (vs.map (·.1)).Pairwise (fun a b => equals a b = false) := by
        rw [h3]
        refine List.pairwise_map.2 (List.Pairwise.imp ?_ (List.pairwise_map.1 h.2))
        intro a b hab
        simp [equals, hab]
      exact List.pairwise_map.1 this
    refine ⟨.map h1, ⟨clean_map.2 (fun e he => (h2 e he).1), WF_map.2 ⟨fun e he => (h2 e he).2, hu⟩⟩, ?_⟩
    rw [Template.written, refInterp]
    split
    · rw [h4 [] (fun _ _ => rfl) h.2]
      rfl
    · rename_i hm
      rw [h5 (by simpa using hm)]
theorem templates_meant : ∀ ts : List Template, OkL ts → (∀ x fs, DataPiece.var x fs ∈ usesL ts → ∀ v, sc.get x = some v → NoPercent v) →
    (∀ x fs, DataPiece.key x fs ∈ usesL ts → Answers E sc ls r x (ans x)) →
    MeantL E sc ls ts (valueL E sc ans ts) ∧ (∀ v ∈ valueL E sc ans ts, NoPercent v ∧ WF v) ∧
      refList E r C true (writtenL ts) = pure (valueL E sc ans ts)
  | [], _, _, _ => ⟨.nil, by simp [valueL], rfl⟩
  | t :: ts, h, hv, hk => by
    rw [OkL] at h
    rw [usesL] at hv hk
    obtain ⟨a1, a2, a3⟩ := template_meant t h.1 (fun x fs hx => hv x fs (List.mem_append_left _ hx)) (fun x fs hx => hk x fs (List.mem_append_left _ hx))
    obtain ⟨b1, b2, b3⟩ := templates_meant ts h.2 (fun x fs hx => hv x fs (List.mem_append_right _ hx)) (fun x fs hx => hk x fs (List.mem_append_right _ hx))
    rw [valueL]
    refine ⟨.cons a1 b1, ?_, ?_⟩
    · intro w hw
      rcases List.mem_cons.1 hw with rfl | hw
      · exact a2
      · exact b2 w hw
    · rw [writtenL, refList, a3, Ans.pure_bind, b3]
      rfl
theorem entries_meant : ∀ es : List (Str × Template), OkE es → (∀ x fs, DataPiece.var x fs ∈ usesE es → ∀ v, sc.get x = some v → NoPercent v) →
    (∀ x fs, DataPiece.key x fs ∈ usesE es → Answers E sc ls r x (ans x)) →
    MeantE E sc ls es (valueE E sc ans es) ∧ (∀ e ∈ valueE E sc ans es, (NoPercent e.1 ∧ NoPercent e.2) ∧ WF e.1 ∧ WF e.2) ∧
      (valueE E sc ans es).map (·.1) = es.map (fun e => .str e.1) ∧
      (∀ cp : Entries, (∀ k ∈ es.map (·.1), Entries.containsKey cp (.str k) = false) → (es.map (·.1)).Nodup →
        refEntries E r C true cp (writtenE es) = pure (cp ++ valueE E sc ans es)) ∧
      (markedE (writtenE es) = false → valueE E sc ans es = writtenE es)
  | [], _, _, _ => ⟨.nil, by simp [valueE], rfl, fun cp _ _ => by rw [writtenE, refEntries, valueE, List.append_nil], fun _ => rfl⟩
  | (k, t) :: es, h, hv, hk => by
    rw [OkE] at h
    rw [usesE] at hv hk
    obtain ⟨a1, a2, a3⟩ := template_meant t h.2.1 (fun x fs hx => hv x fs (List.mem_append_left _ hx)) (fun x fs hx => hk x fs (List.mem_append_left _ hx))
    obtain ⟨b1, b2, b3, b4, b5⟩ := entries_meant es h.2.2 (fun x fs hx => hv x fs (List.mem_append_right _ hx)) (fun x fs hx => hk x fs (List.mem_append_right _ hx))
    have hkk : NoPercent (.str k) := clean_str.2 h.1
    rw [valueE]
    refine ⟨.cons a1 b1, ?_, by simp [b3], ?_, ?_⟩
    · intro e he
      rcases List.mem_cons.1 he with rfl | he
      · exact ⟨⟨hkk, a2.1⟩, by simp, a2.2⟩
      · exact b2 e he
    · intro cp hcp hnd
      rw [writtenE, refEntries, refInterp_unmarked true (noPercent_marked hkk), Ans.pure_bind, a3, Ans.pure_bind]
      have hnd' := List.nodup_cons.1 hnd
      show refEntries E r C true (Entries.put cp (.str k) (valueT E sc ans t)) (writtenE es) = _
      rw [Entries.put_of_not_contains (hcp k (List.mem_cons_self ..)), b4 _ (fun k' hk' => ?_) hnd'.2]
      · simp
      · have hne : k' ≠ k := fun e => hnd'.1 (e ▸ hk')
        have := hcp k' (List.mem_cons_of_mem _ hk')
        unfold Entries.containsKey at this ⊢
        rw [List.any_append, this]
        simp [equals, hne]
    · intro hm
      rw [writtenE, markedE] at hm
      simp only [Bool.or_eq_false_iff] at hm
      have := refInterp_unmarked (E := E) (r := r) (C := C) true hm.1.2
      rw [this] at a3
      have e : t.written = valueT E sc ans t := by injection a3 with a3; injection a3 with a3; injection a3
      rw [writtenE, b5 hm.2, e]
end
end

end Hiera
