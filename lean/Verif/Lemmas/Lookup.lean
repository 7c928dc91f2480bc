/-
  The search through a hierarchy.
-/
import Verif.Lemmas.Does
import Verif.Props.Key

set_option autoImplicit false

namespace Hiera
open Spec

/-- The first segment of a key denotes its root. -/
theorem root_of_text {segs : List Segment} {seg : Segment} (hok : ∀ s ∈ seg :: segs, ∀ p ∈ s, p.Ok) {k : Key}
    (h : newKey (keyText (seg :: segs)) = .ok k) : k.root = segContent seg := by
  have first : ∀ {key : Str} {l : Bool} {p : Part}, Reads key true l seg (.ok p) → p = .name (segContent seg) := by
    intro key l p h
    cases h with
    | verbatim => rfl
    | index i h1 h2 h3 => cases h3
    | name => rfl
  obtain ⟨r, hr⟩ := readsKey_total (keyText (seg :: segs)) (seg :: segs) true (by simp)
  have hg := C03_grammar _ hok r hr
  rw [h] at hg
  cases r with
  | panic e => cases hg
  | ok ps =>
    cases hg
    cases hr with
    | last h1 => rw [first h1]; rfl
    | cons h1 h2 => rw [first h1]; rfl

theorem firstLoop_iff {α : Type} (f : α → M (Option Value)) (vs : List α) (st t : St) (r : Res (Option Value)) :
    firstLoop f vs st = some (r, t) ↔ FirstAnswer f vs st r t := by
  induction vs generalizing st with
  | nil =>
    constructor
    · intro h; cases h; exact .none
    · intro h; cases h; rfl
  | cons v vs ih =>
    have e1 : firstLoop f (v :: vs) st = (f v >>= fun r => match r with | some x => pure (some x) | none => firstLoop f vs) st := rfl
    rw [e1, bind_def]
    constructor
    · intro h
      rcases hv : f v st with _ | ⟨(_ | x) | e, u⟩ <;> rw [hv] at h
      · cases h
      · exact .miss hv ((ih _).1 h)
      · cases h; exact .hit hv
      · cases h; exact .fail hv
    · intro h
      cases h with
      | hit h => rw [h]; rfl
      | fail h => rw [h]
      | miss h h2 => rw [h]; exact (ih _).2 h2

theorem firstAnswer_append {α : Type} {f : α → M (Option Value)} {as bs : List α} {s t : St} {r : Res (Option Value)} :
    FirstAnswer f (as ++ bs) s r t ↔
      (FirstAnswer f as s r t ∧ r ≠ .ok none) ∨ ∃ u, FirstAnswer f as s (.ok none) u ∧ FirstAnswer f bs u r t := by
  induction as generalizing s with
  | nil =>
    constructor
    · exact fun h => .inr ⟨s, .none, h⟩
    · rintro (⟨h1, h2⟩ | ⟨u, h1, h2⟩)
      · cases h1; exact absurd rfl h2
      · cases h1; exact h2
  | cons a as ih =>
    constructor
    · intro h
      cases h with
      | hit h => exact .inl ⟨.hit h, by simp⟩
      | fail h => exact .inl ⟨.fail h, by simp⟩
      | miss h h2 =>
        rcases ih.1 h2 with ⟨h3, h4⟩ | ⟨u, h3, h4⟩
        · exact .inl ⟨.miss h h3, h4⟩
        · exact .inr ⟨u, .miss h h3, h4⟩
    · rintro (⟨h1, h2⟩ | ⟨u, h1, h2⟩)
      · cases h1 with
        | hit h => exact .hit h
        | fail h => exact .fail h
        | miss h h3 => exact .miss h (ih.2 (.inl ⟨h3, h2⟩))
      · cases h1 with
        | miss h h3 => exact .miss h (ih.2 (.inr ⟨u, h3, h2⟩))

/-- `mergeM` with the strategy `first`, without explainer. -/
theorem mergeM_first {α : Type} {f : α → M (Option Value)} (hf : ∀ a, Quiet (f a)) (vs : List α) {st : St} (ho : st.on = none)
    (t : St) (r : Res (Option Value)) : mergeM .first vs f st = some (r, t) ↔ FirstAnswer f vs st r t := by
  match vs with
  | [] => rw [← firstLoop_iff]; rfl
  | [v] =>
    rw [← firstLoop_iff]
    show f v st = _ ↔ (f v >>= fun r => match r with | some x => pure (some x) | none => pure none) st = _
    rw [bind_def]
    rcases f v st with _ | ⟨(_ | x) | e, u⟩ <;> rfl
  | v :: w :: vs =>
    rw [← firstLoop_iff]
    have hq : Quiet (firstLoop f (v :: w :: vs)) := by
      generalize v :: w :: vs = l
      induction l with
      | nil => exact QuietRel.base.pure _
      | cons a as ih =>
        refine Quiet.bind (hf a) (fun r => ?_)
        cases r
        · exact ih
        · exact QuietRel.base.pure _
    show (firstLoop f (v :: w :: vs) >>= fun r => match r with
      | some v => (do report (.result v); pure (some v))
      | none => pure none) st = _ ↔ _
    rw [bind_def]
    rcases h : firstLoop f (v :: w :: vs) st with _ | ⟨(_ | x) | e, u⟩
    · rfl
    · rfl
    · simp only [bind_def, Quiet.off_report (hq _ _ _ ho h).1]
      rfl
    · rfl


theorem FirstAnswer.quiet {α : Type} {f : α → M (Option Value)} (hf : ∀ a, Quiet (f a)) {as : List α} {s t : St}
    {r : Res (Option Value)} (h : FirstAnswer f as s r t) (ho : s.on = none) : t.on = none := by
  induction h with
  | none => exact ho
  | hit h => exact (hf _ _ _ _ ho h).1
  | fail h => exact (hf _ _ _ _ ho h).1
  | miss h _ ih => exact ih (hf _ _ _ _ ho h).1

/-- Asking elements each of which asks some places, is asking all these places. -/
theorem firstAnswer_flatMap {α β : Type} {f : α → M (Option Value)} {g : β → M (Option Value)} {pl : α → List β}
    (hf : ∀ a, Quiet (f a))
    (hpl : ∀ a s t r, s.on = none → (f a s = some (r, t) ↔ FirstAnswer g (pl a) s r t))
    (as : List α) {s t : St} {r : Res (Option Value)} (ho : s.on = none) :
    FirstAnswer f as s r t ↔ FirstAnswer g (as.flatMap pl) s r t := by
  induction as generalizing s with
  | nil =>
    constructor
    · intro h; cases h; exact .none
    · intro h; cases h; exact .none
  | cons a as ih =>
    rw [List.flatMap_cons, firstAnswer_append]
    constructor
    · intro h
      cases h with
      | hit h => exact .inl ⟨(hpl _ _ _ _ ho).1 h, by simp⟩
      | fail h => exact .inl ⟨(hpl _ _ _ _ ho).1 h, by simp⟩
      | miss h h2 => exact .inr ⟨_, (hpl _ _ _ _ ho).1 h, (ih (hf _ _ _ _ ho h).1).1 h2⟩
    · rintro (⟨h1, h2⟩ | ⟨u, h1, h2⟩)
      · have h3 := (hpl _ _ _ _ ho).2 h1
        rcases r with (_ | v) | e
        · exact absurd rfl h2
        · exact .hit h3
        · exact .fail h3
      · have h3 := (hpl _ _ _ _ ho).2 h1
        exact .miss h3 ((ih (hf _ _ _ _ ho h3).1).2 h2)

theorem invokeWithLocation_off (E : Env) (rec : Rec) (p : Prov) (k : Key) (l : Loc) {s : St} (ho : s.on = none) :
    invokeWithLocation E rec p k l s = if l.exists_ then provLookup E rec p (some l) k s else some (.ok none, s) := by
  unfold invokeWithLocation
  rw [Quiet.off_withNode ho]
  by_cases h : l.exists_ = true
  · rw [if_pos h, if_pos h]
  · rw [if_neg h, if_neg h, bind_ok (Quiet.off_report ho)]; rfl

theorem firstAnswer_one {α : Type} {f : α → M (Option Value)} {a : α} {s t : St} {r : Res (Option Value)} :
    FirstAnswer f [a] s r t ↔ f a s = some (r, t) := by
  constructor
  · intro h
    cases h with
    | hit h => exact h
    | fail h => exact h
    | miss h h2 => cases h2; exact h
  · intro h
    rcases r with (_ | v) | e
    · exact .miss h .none
    · exact .hit h
    · exact .fail h

theorem mergeLocations_first (E : Env) (n : Nat) (k : Key) (p : Prov) (s t : St) (r : Res (Option Value)) (ho : s.on = none) :
    mergeLocations E (eval E n) k .first p s = some (r, t) ↔
      FirstAnswer (fun pl : Prov × Option Loc => provLookup E (eval E n) pl.1 pl.2 k) (places p) s r t := by
  have hq := QuietRel.eval E n
  have hc := QuietRel.closed E
  have one : ∀ (l : Loc) (s t : St) (r : Res (Option Value)), s.on = none →
      (invokeWithLocation E (eval E n) p k l s = some (r, t) ↔ FirstAnswer
        (fun pl : Prov × Option Loc => provLookup E (eval E n) pl.1 pl.2 k) (if l.exists_ then [(p, some l)] else []) s r t) := by
    intro l s t r ho
    rw [invokeWithLocation_off _ _ _ _ _ ho]
    by_cases h : l.exists_ = true
    · rw [if_pos h, if_pos h, firstAnswer_one]
    · rw [if_neg h, if_neg h]
      constructor
      · intro h; cases h; exact .none
      · intro h; cases h; rfl
  have flat : ∀ ls : List Loc, (ls.filter Loc.exists_).map (fun l => (p, some l)) =
      ls.flatMap (fun l => if l.exists_ then [(p, some l)] else []) := by
    intro ls
    induction ls with
    | nil => rfl
    | cons l ls ih =>
      by_cases h : l.exists_ = true
      · simp only [List.filter_cons, h, if_true, List.map_cons, List.flatMap_cons, ih]; rfl
      · simp only [List.filter_cons, h, Bool.false_eq_true, if_false, List.flatMap_cons, List.nil_append, ih]
  unfold mergeLocations
  rw [Quiet.off_withNode ho]
  unfold places
  match p.entry.locations with
  | none => rw [firstAnswer_one]
  | some [] =>
    constructor
    · intro h; cases h; exact .none
    · intro h; cases h; rfl
  | some [l] => simp only [flat, List.flatMap_cons, List.flatMap_nil, List.append_nil]; exact one l s t r ho
  | some (l :: l' :: ls) =>
    simp only [flat]
    rw [mergeM_first (fun l => (QuietRel.base.asking E).invokeWithLocation hq p k l (fun _ _ => trivial)) _ ho]
    exact firstAnswer_flatMap (fun l => (QuietRel.base.asking E).invokeWithLocation hq p k l (fun _ _ => trivial)) one _ ho

theorem mergeHierarchy_first (E : Env) (n : Nat) (k : Key) (ps : List Prov) (s t : St) (r : Res (Option Value)) (ho : s.on = none) :
    mergeHierarchy E (eval E n) k ps .first s = some (r, t) ↔
      FirstAnswer (fun pl : Prov × Option Loc => provLookup E (eval E n) pl.1 pl.2 k) (ps.flatMap places) s r t := by
  have hq := QuietRel.eval E n
  have hc := QuietRel.closed E
  unfold mergeHierarchy
  rw [mergeM_first (fun p => hc.mergeLocations hq k .first p) _ ho]
  exact firstAnswer_flatMap (fun p => hc.mergeLocations hq k .first p) (fun p s t r ho => mergeLocations_first E n k p s t r ho) _ ho

/-! Strategies that ask everyone. -/

/-- Answers to the same question. -/
def AgreeAll : Res (List (Option Value)) → Res (List (Option Value)) → Prop
  | .ok os, .ok os' => (∃ x, some x ∈ os) ↔ ∃ x, some x ∈ os'
  | .panic e, .panic e' => e = e'
  | _, _ => False

theorem Spec.Agree.trans {r : Res (Option Value)} {r1 r2 : Res (List (Option Value))} (h : Agree r r1) (h' : AgreeAll r1 r2) :
    Agree r r2 := by
  cases r <;> cases r1 <;> cases r2 <;> simp only [Agree, AgreeAll] at *
  · exact Iff.trans h h'
  · exact Eq.trans h h'

theorem Spec.Asked.append {α : Type} {f : α → M (Option Value)} {as bs : List α} {s u t : St} {os : List (Option Value)}
    {r : Res (List (Option Value))} (h : Asked f as s (.ok os) u) (h2 : Asked f bs u r t) :
    Asked f (as ++ bs) s (r.bind fun os' => .ok (os ++ os')) t := by
  induction as generalizing s os with
  | nil => cases h; cases r <;> exact h2
  | cons a as ih =>
    cases h with
    | cons h3 h4 =>
      have := ih h4
      cases r with
      | panic e => exact .later h3 this
      | ok os' => exact .cons h3 this

theorem Spec.Asked.append_fail {α : Type} {f : α → M (Option Value)} {as bs : List α} {s t : St} {e : Err}
    (h : Asked f as s (.panic e) t) : Asked f (as ++ bs) s (.panic e) t := by
  induction as generalizing s with
  | nil => cases h
  | cons a as ih =>
    cases h with
    | fail h => exact .fail h
    | later h h2 => exact .later h (ih h2)

theorem asked_one {α : Type} {f : α → M (Option Value)} {a : α} {s t : St} {r : Res (Option Value)}
    (h : f a s = some (r, t)) : ∃ r', Asked f [a] s r' t ∧ Agree r r' := by
  cases r with
  | panic e => exact ⟨_, .fail h, rfl⟩
  | ok o => refine ⟨_, .cons h .nil, ?_⟩; cases o <;> simp [Agree]

/-- Asking elements each of which asks all of some places, is asking all these places. -/
theorem asked_flatMap {α β : Type} {f : α → M (Option Value)} {g : β → M (Option Value)} {pl : α → List β}
    (hf : ∀ a, Quiet (f a))
    (hpl : ∀ a s t r, s.on = none → f a s = some (r, t) → ∃ r', Asked g (pl a) s r' t ∧ Agree r r')
    {as : List α} {s t : St} {r : Res (List (Option Value))} (ho : s.on = none) (h : Asked f as s r t) :
    ∃ r', Asked g (as.flatMap pl) s r' t ∧ AgreeAll r r' := by
  induction as generalizing s r with
  | nil => cases h; exact ⟨_, .nil, by simp [AgreeAll]⟩
  | cons a as ih =>
    rw [List.flatMap_cons]
    cases h with
    | cons h h2 =>
      obtain ⟨r1, h3, h4⟩ := hpl _ _ _ _ ho h
      cases r1 with
      | panic e => simp [Agree] at h4
      | ok os1 =>
        obtain ⟨r2, h5, h6⟩ := ih (hf _ _ _ _ ho h).1 h2
        refine ⟨_, h3.append h5, ?_⟩
        cases r2 with
        | panic e => simp [AgreeAll] at h6
        | ok os2 =>
          simp only [AgreeAll, Agree, Res.bind] at *
          rename_i o _ _
          constructor
          · rintro ⟨x, hx⟩
            rcases List.mem_cons.1 hx with rfl | hx
            · obtain ⟨y, hy⟩ := h4.1 rfl
              exact ⟨y, by simp [hy]⟩
            · obtain ⟨y, hy⟩ := h6.1 ⟨x, hx⟩
              exact ⟨y, by simp [hy]⟩
          · rintro ⟨x, hx⟩
            rcases List.mem_append.1 hx with hx | hx
            · have := h4.2 ⟨x, hx⟩
              obtain ⟨y, rfl⟩ := Option.isSome_iff_exists.1 this
              exact ⟨y, by simp⟩
            · obtain ⟨y, hy⟩ := h6.2 ⟨x, hx⟩
              exact ⟨y, by simp [hy]⟩
    | fail h =>
      obtain ⟨r1, h3, h4⟩ := hpl _ _ _ _ ho h
      cases r1 with
      | ok os => simp [Agree] at h4
      | panic e => exact ⟨_, h3.append_fail, h4⟩
    | later h h2 =>
      obtain ⟨r1, h3, h4⟩ := hpl _ _ _ _ ho h
      cases r1 with
      | panic e => simp [Agree] at h4
      | ok os1 =>
        obtain ⟨r2, h5, h6⟩ := ih (hf _ _ _ _ ho h).1 h2
        refine ⟨_, h3.append h5, ?_⟩
        cases r2 with
        | panic e => exact h6
        | ok os2 => simp [AgreeAll] at h6

theorem mergeLoop_asked {α : Type} {f : α → M (Option Value)} (st : Strategy) (vs : List α) (memo : Option Value) {s t : St}
    {r : Res (Option Value)} (h : mergeLoop st f memo vs s = some (r, t)) :
    ∃ r', Asked f vs s r' t ∧ match r, r' with
      | .ok v, .ok os => v.isSome = true ↔ memo.isSome = true ∨ ∃ x, some x ∈ os
      | .panic e, .panic e' => e = e'
      | _, _ => False := by
  induction vs generalizing memo s with
  | nil => cases h; exact ⟨_, .nil, by simp⟩
  | cons v vs ih =>
    have e1 : mergeLoop st f memo (v :: vs) s = (f v >>= fun r => match r with
      | some x => match memo with
        | none => mergeLoop st f (some (st.convertValue x)) vs
        | some a => mergeLoop st f (some (st.merge a x)) vs
      | none => mergeLoop st f memo vs) s := rfl
    rw [e1, bind_def] at h
    rcases hv : f v s with _ | ⟨(_ | x) | e, u⟩ <;> rw [hv] at h
    · cases h
    · obtain ⟨r', h1, h2⟩ := ih _ h
      rcases r with o | e <;> rcases r' with os | e' <;> simp only at h2
      · exact ⟨_, .cons hv h1, by simp [h2]⟩
      · exact ⟨_, .later hv h1, h2⟩
    · have : ∃ m', mergeLoop st f (some m') vs u = some (r, t) := by
        cases memo <;> exact ⟨_, h⟩
      obtain ⟨m', h⟩ := this
      obtain ⟨r', h1, h2⟩ := ih _ h
      rcases r with o | e <;> rcases r' with os | e' <;> simp only at h2
      · exact ⟨_, .cons hv h1, by simp at h2; simp [h2]⟩
      · exact ⟨_, .later hv h1, h2⟩
    · cases h
      exact ⟨_, .fail hv, rfl⟩

/-- A strategy other than `first` asks everyone. -/
theorem mergeM_asked {α : Type} {f : α → M (Option Value)} (hf : ∀ a, Quiet (f a)) {st : Strategy} (hst : st ≠ .first)
    (vs : List α) {s t : St} {r : Res (Option Value)} (ho : s.on = none) (h : mergeM st vs f s = some (r, t)) :
    ∃ r', Asked f vs s r' t ∧ Agree r r' := by
  have one : ∀ v, (do match ← f v with | some x => pure (some (st.single x)) | none => pure none : M (Option Value)) s =
      some (r, t) → ∃ r', Asked f [v] s r' t ∧ Agree r r' := by
    intro v h
    rw [bind_def] at h
    rcases hv : f v s with _ | ⟨(_ | x) | e, u⟩ <;> rw [hv] at h
    · cases h
    · cases h; exact ⟨_, .cons hv .nil, by simp [Agree]⟩
    · cases h; exact ⟨_, .cons hv .nil, by simp [Agree]⟩
    · cases h; exact ⟨_, .fail hv, rfl⟩
  have many : ∀ w, withNode w (do
      let r ← mergeLoop st f none vs
      match r with
      | some v => do report (.result v); pure (some v)
      | none => pure none : M (Option Value)) s = some (r, t) → ∃ r', Asked f vs s r' t ∧ Agree r r' := by
    intro w h
    rw [Quiet.off_withNode ho, bind_def] at h
    have hq' : ∀ (ws : List α) (memo : Option Value), Quiet (mergeLoop st f memo ws) := by
      intro ws
      induction ws with
      | nil => exact fun _ => QuietRel.base.pure _
      | cons a as ih =>
        intro memo
        refine Quiet.bind (hf a) (fun r => ?_)
        cases r
        · exact ih _
        · cases memo <;> exact ih _
    have hq := hq' vs none
    rcases hv : mergeLoop st f none vs s with _ | ⟨(_ | x) | e, u⟩ <;> rw [hv] at h
    · cases h
    · cases h
      obtain ⟨r', h1, h2⟩ := mergeLoop_asked st vs none hv
      cases r' <;> simp only at h2
      exact ⟨_, h1, by simpa [Agree] using h2⟩
    · have hu := (hq _ _ _ ho hv).1
      simp only [bind_def, Quiet.off_report hu, pure_def] at h
      cases h
      obtain ⟨r', h1, h2⟩ := mergeLoop_asked st vs none hv
      cases r' <;> simp only at h2
      exact ⟨_, h1, by simpa [Agree] using h2⟩
    · cases h
      obtain ⟨r', h1, h2⟩ := mergeLoop_asked st vs none hv
      cases r' <;> simp only at h2
      exact ⟨_, h1, h2⟩
  match vs, st with
  | _, .first => exact absurd rfl hst
  | [], .unique => cases h; exact ⟨_, .nil, by simp [Agree]⟩
  | [], .hash => cases h; exact ⟨_, .nil, by simp [Agree]⟩
  | [], .deep _ => cases h; exact ⟨_, .nil, by simp [Agree]⟩
  | [v], .unique => exact one v h
  | [v], .hash => exact one v h
  | [v], .deep _ => exact one v h
  | v :: w :: vs, .unique => exact many _ h
  | v :: w :: vs, .hash => exact many _ h
  | v :: w :: vs, .deep _ => exact many _ h

theorem places_flat (p : Prov) (ls : List Loc) : (ls.filter Loc.exists_).map (fun l => (p, some l)) =
    ls.flatMap (fun l => if l.exists_ then [(p, some l)] else []) := by
  induction ls with
  | nil => rfl
  | cons l ls ih =>
    by_cases h : l.exists_ = true
    · simp only [List.filter_cons, h, if_true, List.map_cons, List.flatMap_cons, ih]; rfl
    · simp only [List.filter_cons, h, Bool.false_eq_true, if_false, List.flatMap_cons, List.nil_append, ih]

theorem mergeLocations_asked (E : Env) (n : Nat) (k : Key) {st : Strategy} (hst : st ≠ .first) (p : Prov) (s t : St)
    (r : Res (Option Value)) (ho : s.on = none) (h : mergeLocations E (eval E n) k st p s = some (r, t)) :
    ∃ r', Asked (fun pl : Prov × Option Loc => provLookup E (eval E n) pl.1 pl.2 k) (places p) s r' t ∧ Agree r r' := by
  have hq := QuietRel.eval E n
  have hc := QuietRel.closed E
  have one : ∀ (l : Loc) (s t : St) (r : Res (Option Value)), s.on = none →
      invokeWithLocation E (eval E n) p k l s = some (r, t) → ∃ r', Asked
        (fun pl : Prov × Option Loc => provLookup E (eval E n) pl.1 pl.2 k) (if l.exists_ then [(p, some l)] else []) s r' t ∧
        Agree r r' := by
    intro l s t r ho hl
    rw [invokeWithLocation_off _ _ _ _ _ ho] at hl
    by_cases h : l.exists_ = true
    · rw [if_pos h] at hl ⊢; exact asked_one (f := fun pl : Prov × Option Loc => provLookup E (eval E n) pl.1 pl.2 k) hl
    · rw [if_neg h] at hl ⊢; cases hl; exact ⟨_, .nil, by simp [Agree]⟩
  unfold mergeLocations at h
  rw [Quiet.off_withNode ho] at h
  unfold places
  match hp : p.entry.locations with
  | none => rw [hp] at h; exact asked_one (f := fun pl : Prov × Option Loc => provLookup E (eval E n) pl.1 pl.2 k) h
  | some [] => rw [hp] at h; cases h; exact ⟨_, .nil, by simp [Agree]⟩
  | some [l] =>
    rw [hp] at h
    simp only [places_flat, List.flatMap_cons, List.flatMap_nil, List.append_nil]
    exact one l s t r ho h
  | some (l :: l' :: ls) =>
    rw [hp] at h
    simp only [places_flat]
    obtain ⟨r1, h1, h2⟩ := mergeM_asked (fun l => (QuietRel.base.asking E).invokeWithLocation hq p k l (fun _ _ => trivial)) hst _ ho h
    obtain ⟨r2, h3, h4⟩ := asked_flatMap (fun l => (QuietRel.base.asking E).invokeWithLocation hq p k l (fun _ _ => trivial)) one ho h1
    exact ⟨r2, h3, h2.trans h4⟩

theorem mergeHierarchy_asked (E : Env) (n : Nat) (k : Key) {st : Strategy} (hst : st ≠ .first) (ps : List Prov) (s t : St)
    (r : Res (Option Value)) (ho : s.on = none) (h : mergeHierarchy E (eval E n) k ps st s = some (r, t)) :
    ∃ r', Asked (fun pl : Prov × Option Loc => provLookup E (eval E n) pl.1 pl.2 k) (ps.flatMap places) s r' t ∧ Agree r r' := by
  have hq := QuietRel.eval E n
  have hc := QuietRel.closed E
  obtain ⟨r1, h1, h2⟩ := mergeM_asked (fun p => hc.mergeLocations hq k st p) hst _ ho h
  obtain ⟨r2, h3, h4⟩ := asked_flatMap (fun p => hc.mergeLocations hq k st p)
    (fun p s t r ho h => mergeLocations_asked E n k hst p s t r ho h) ho h1
  exact ⟨r2, h3, h2.trans h4⟩

end Hiera
