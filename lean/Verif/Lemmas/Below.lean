/- Merging with further values only adds. -/
import Verif.Spec.Below
import Verif.Props.Ordinary

set_option autoImplicit false

namespace Hiera
open Value Spec World

theorem unique_prefix {xs ys : List Value} : unique xs <+: unique (xs ++ ys) := by
  rw [unique_append]
  exact List.prefix_append _ _

theorem unique_prefix_of {xs zs : List Value} (h : xs <+: zs) : unique xs <+: unique zs := by
  obtain ⟨ys, rfl⟩ := h
  exact unique_prefix

theorem extends_trans {a b : Value} (h : Extends a b) : ∀ {c : Value}, WF a → WF b → WF c → Extends b c → Extends a c := by
  induction h with
  | same => intro _ _ _ _ h; exact h
  | @maps as bs h1 h2 ih =>
    intro c ha hb hc h
    cases h with
    | same => exact .maps h1 h2
    | @maps _ cs g1 g2 =>
      refine .maps (fun k x hk hx => ?_) (fun k x z hk hx hz => ?_)
      · cases hy : Entries.get bs k with
        | none => exact absurd hy (h1 k x hk hx)
        | some y => exact g1 k y hk hy
      · cases hy : Entries.get bs k with
        | none => exact absurd hy (h1 k x hk hx)
        | some y => exact ih k x y hk hx hy (Entries.WF_of_get ha hx) (Entries.WF_of_get hb hy) (Entries.WF_of_get hc hz) (g2 k y z hk hy hz)
  | @arrays as ns bs h1 h2 =>
    intro c ha hb hc h
    cases h with
    | same => exact .arrays h1 h2
    | @arrays _ ms cs g1 g2 =>
      have wa := WF_arr.1 ha
      have wb := WF_arr.1 hb
      rcases g1 with rfl | g1
      · exact .arrays h1 (h2.trans g2)
      · rw [isNub_eq wb g1] at g2
        rcases h1 with rfl | h1
        · exact .arrays (.inr (isNub_unique _ wa)) ((unique_prefix_of h2).trans g2)
        · have e := isNub_eq wa h1
          refine .arrays (.inr h1) (List.IsPrefix.trans ?_ g2)
          have := unique_prefix_of h2
          rw [e, unique_id (unique_pairwise as)] at this
          rw [e]
          exact this

theorem deepMerged_extends {a b c : Value} (h : DeepMerged a b c) : WF a → WF b → Extends a c := by
  induction h with
  | @maps as bs rs h1 h2 h3 h4 ih =>
    intro ha hb
    refine .maps (fun k x hk hx hn => ?_) (fun k x z hk hx hz => ?_)
    · rw [((h1 k hk).1 hn).1] at hx; cases hx
    · cases hy : Entries.get bs k with
      | none =>
        rw [h2 k x hk hx hy] at hz
        cases hz
        exact .same
      | some y => exact ih k x y z hk hx hy hz (Entries.WF_of_get ha hx) (Entries.WF_of_get hb hy)
  | @arrays as bs rs _ _ h =>
    intro ha hb
    have hw : ∀ v ∈ as ++ bs, WF v := fun v hv => by
      rcases List.mem_append.1 hv with h | h
      · exact WF_arr.1 ha v h
      · exact WF_arr.1 hb v h
    refine .arrays (.inr (isNub_unique as (WF_arr.1 ha))) ?_
    rw [isNub_eq hw h]
    exact unique_prefix
  | emptyLeft => intro _ _; exact .arrays (.inl rfl) List.nil_prefix
  | emptyRight => intro _ _; exact .same
  | other _ => intro _ _; exact .same

/-- What the strategy `unique` merges is a flat array. -/
def FlatFor : Strategy → Value → Prop
  | .unique, a => ∃ es, a = .arr es ∧ ∀ e ∈ es, ∀ xs, e ≠ .arr xs
  | _, _ => True

theorem flatFor_convert (st : Strategy) (v : Value) : FlatFor st (st.convertValue v) := by
  cases st with
  | unique => exact ⟨_, rfl, fun e he => flattenV_no_arr v e (by rw [← convertUnique_eq]; exact he)⟩
  | _ => trivial

theorem flatFor_merge (st : Strategy) {a : Value} (h : FlatFor st a) (b : Value) : FlatFor st (st.merge a b) := by
  cases st with
  | unique =>
    obtain ⟨es, rfl, hf⟩ := h
    refine ⟨_, rfl, fun e he => ?_⟩
    have := unique_mem he
    rcases List.mem_append.1 this with h | h
    · exact flatten_no_arr es e h
    · exact flattenV_no_arr b e (by rw [← convertUnique_eq]; exact h)
  | _ => trivial

theorem convert_WF (st : Strategy) {v : Value} (h : WF v) : WF (st.convertValue v) := by
  cases st with
  | unique =>
    refine WF_arr.2 (fun x hx => flattenV_WF v h x ?_)
    rw [← convertUnique_eq]; exact hx
  | _ => exact h

theorem merge_WF (st : Strategy) {a b : Value} (ha : WF a) (hb : WF b) : WF (st.merge a b) := by
  cases st with
  | first => exact ha
  | unique =>
    refine WF_arr.2 (fun x hx => ?_)
    rcases List.mem_append.1 (unique_mem hx) with h | h
    · exact flattenV_WF a ha x (by rw [← convertUnique_eq]; exact h)
    · exact flattenV_WF b hb x (by rw [← convertUnique_eq]; exact h)
  | hash =>
    cases a <;> cases b <;> first | exact ha | exact Entries.WF_merge hb ha
  | deep => exact deep_WF ha hb

theorem merge_extends (st : Strategy) {a b : Value} (ha : WF a) (hb : WF b) (hf : FlatFor st a) : Extends a (st.merge a b) := by
  cases st with
  | first => exact .same
  | unique =>
    obtain ⟨es, rfl, hf⟩ := hf
    have e : convertUnique (.arr es) = es := flatten_flat es hf
    show Extends _ (.arr (unique (convertUnique (.arr es) ++ _)))
    rw [e]
    exact .arrays (.inr (isNub_unique es (WF_arr.1 ha))) unique_prefix
  | hash =>
    have maps : ∀ as bs, WF (.map as) → WF (.map bs) → Extends (.map as) (.map (Entries.merge bs as)) := fun as bs ha hb => by
      have g : ∀ k x, WF k → Entries.get as k = some x → Entries.get (Entries.merge bs as) k = some x := fun k x hk hx => by
        rw [Entries.get_merge hb ha hk, hx]; try rfl
      exact .maps (fun k x hk hx hn => by rw [g k x hk hx] at hn; cases hn) (fun k x y hk hx hy => by
        rw [g k x hk hx] at hy; cases hy; exact .same)
    cases a <;> cases b <;> first | exact .same | exact maps _ _ ha hb
  | deep => exact deepMerged_extends (C10_deep a b ha hb) ha hb

theorem fold_extends (st : Strategy) : ∀ (ws : List Value) {a : Value}, WF a → (∀ w ∈ ws, WF w) → FlatFor st a → Extends a (ws.foldl st.merge a) ∧ WF (ws.foldl st.merge a)
  | [], _, ha, _, _ => ⟨.same, ha⟩
  | w :: ws, a, ha, hw, hf => by
    have h1 := merge_extends st ha (hw w (by simp)) hf
    have h2 := merge_WF st ha (hw w (by simp))
    obtain ⟨h3, h4⟩ := fold_extends st ws h2 (fun x hx => hw x (by simp [hx])) (flatFor_merge st hf w)
    exact ⟨extends_trans h1 ha h2 h4 h3, h4⟩

theorem fold_flat (st : Strategy) : ∀ (ws : List Value) {a : Value}, FlatFor st a → FlatFor st (ws.foldl st.merge a)
  | [], _, h => h
  | w :: ws, _, h => fold_flat st ws (flatFor_merge st h w)

theorem convert_flat (st : Strategy) {a : Value} (h : FlatFor st a) : st.convertValue a = a := by
  cases st with
  | unique =>
    obtain ⟨es, rfl, hf⟩ := h
    exact congrArg Value.arr (flatten_flat es hf)
  | _ => rfl

theorem combine_extends (st : Strategy) {vs ws : List Value} (hv : ∀ v ∈ vs, WF v) (hw : ∀ w ∈ ws, WF w) :
    ExtendsO (refCombine st vs) (refCombine st (vs ++ ws)) := by
  cases vs with
  | nil => intro x h; cases h
  | cons v vs =>
    intro x h
    cases h
    have hc := convert_WF st (hv v (by simp))
    obtain ⟨_, h2⟩ := fold_extends st vs hc (fun w hw => hv w (by simp [hw])) (flatFor_convert st v)
    refine ⟨ws.foldl st.merge (vs.foldl st.merge (st.convertValue v)), ?_, (fold_extends st ws h2 hw (fold_flat st vs (flatFor_convert st v))).1⟩
    show some ((vs ++ ws).foldl st.merge (st.convertValue v)) = _
    rw [List.foldl_append]

/-- The merge does not depend on the number of levels, if a single value for `unique` is an array already. -/
theorem outcome_combine {st : Str} {stv : Strategy} (hst : getStrategy st none = .ok stv) {ls : List Level} {key : Str}
    (ha : ArrayIfAlone st (valuesOf ls key)) :
    outcome stv ls key = refCombine stv (valuesOf ls key) ∧ (outcome stv ls key).map stv.convertValue = refCombine stv (valuesOf ls key) := by
  have flat : ∀ vs : List Value, (refCombine stv vs).map stv.convertValue = refCombine stv vs := fun vs => by
    cases vs with
    | nil => rfl
    | cons v vs => exact congrArg some (convert_flat stv (fold_flat stv vs (flatFor_convert stv v)))
  have first : ∀ (v : Value) (vs : List Value), vs.foldl Strategy.first.merge v = v := fun v vs => by
    induction vs with
    | nil => rfl
    | cons w vs ih => exact ih
  suffices h : outcome stv ls key = refCombine stv (valuesOf ls key) from ⟨h, by rw [h]; exact flat _⟩
  have single : ∀ l, ls = [l] → valuesOf ls key = (l.has key).toList := fun l h => by rw [h, valuesOf_cons]; simp [valuesOf]
  have one : ∀ (l : Level) (v : Value), ls = [l] → l.has key = some v → stv.single v = stv.convertValue v := fun l v hl hv => by
    cases stv with
    | unique =>
      have : st = "unique".toList := by
        unfold getStrategy at hst
        split at hst
        · cases hst
        split at hst
        · assumption
        split at hst
        · cases hst
        split at hst <;> cases hst
      obtain ⟨es, rfl, f1, f2⟩ := ha this v (by rw [single l hl, hv]; rfl)
      show Value.arr (unique (flatten es)) = .arr (flatten es)
      rw [flatten_flat es f1, unique_id f2]
    | _ => cases v <;> rfl
  cases stv with
  | first =>
    show (valuesOf ls key).head? = _
    cases valuesOf ls key with
    | nil => rfl
    | cons v vs => exact congrArg some (first v vs).symm
  | unique | hash | deep =>
    match ls, single, one with
    | [], _, _ => rfl
    | [l], single, one =>
      rw [single l rfl]
      cases hl : l.has key with
      | none => show (l.has key).map _ = _; rw [hl]; rfl
      | some v => show (l.has key).map _ = _; rw [hl]; exact congrArg some (one l v rfl hl)
    | a :: b :: ls, _, _ => rfl

theorem extends_field : ∀ (fs : List Str) {a b : Value}, Extends a b → ExtendsO (fieldOf fs a) (fieldOf fs b)
  | [], a, b, h => fun x hx => by cases hx; exact ⟨b, rfl, h⟩
  | f :: fs, a, b, h => by
    intro x hx
    cases h with
    | same => exact ⟨x, hx, .same⟩
    | @maps as bs h1 h2 =>
      simp only [fieldOf, Option.bind_eq_some_iff] at hx ⊢
      obtain ⟨y, hy, hx⟩ := hx
      have wk : WF (.str f) := by simp
      cases hz : Entries.getS bs f with
      | none => exact absurd hz (h1 _ y wk hy)
      | some z =>
        obtain ⟨w, g1, g2⟩ := extends_field fs (h2 _ y z wk hy hz) x hx
        exact ⟨w, ⟨z, rfl, g1⟩, g2⟩
    | arrays => cases hx

theorem extendsO_field (fs : List Str) {a b : Option Value} (h : ExtendsO a b) : ExtendsO (a.bind (fieldOf fs)) (b.bind (fieldOf fs)) := by
  intro x hx
  obtain ⟨y, hy, hx⟩ := Option.bind_eq_some_iff.1 hx
  obtain ⟨z, rfl, hz⟩ := h y hy
  exact extends_field fs hz x hx

end Hiera
