/- Lemmas about merging. -/
import Verif.Spec.Merge
import Verif.Lemmas.Map
import Mathlib.Data.List.Induction

set_option autoImplicit false

namespace Hiera
open Spec Value

/-! ### `Unique` -/

theorem uniqueFrom_mem {seen vs : List Value} {v : Value} (h : v ∈ uniqueFrom seen vs) : v ∈ vs := by
  induction vs generalizing seen with
  | nil => simp [uniqueFrom] at h
  | cons x xs ih =>
    rw [uniqueFrom] at h
    split at h
    · exact List.mem_cons_of_mem _ (ih h)
    · rcases List.mem_cons.1 h with rfl | h
      · simp
      · exact List.mem_cons_of_mem _ (ih h)

theorem unique_mem {vs : List Value} {v : Value} (h : v ∈ unique vs) : v ∈ vs := uniqueFrom_mem h

theorem uniqueFrom_sublist (vs : List Value) : ∀ seen, (uniqueFrom seen vs).Sublist vs := by
  induction vs with
  | nil => intro seen; simp [uniqueFrom]
  | cons x xs ih =>
    intro seen
    rw [uniqueFrom]
    split
    · exact (ih _).cons _
    · exact (ih _).cons_cons _

theorem uniqueFrom_fresh {seen vs : List Value} {v : Value} (h : v ∈ uniqueFrom seen vs) :
    ∀ x ∈ seen, equals x v = false := by
  induction vs generalizing seen with
  | nil => simp [uniqueFrom] at h
  | cons y ys ih =>
    rw [uniqueFrom] at h
    split at h
    · exact ih h
    · rename_i hs
      rcases List.mem_cons.1 h with rfl | h
      · simpa using hs
      · intro x hx
        exact ih h x (by simp [hx])

theorem uniqueFrom_pairwise (vs : List Value) : ∀ seen, (uniqueFrom seen vs).Pairwise (fun a b => equals a b = false) := by
  induction vs with
  | nil => intro seen; simp [uniqueFrom]
  | cons x xs ih =>
    intro seen
    rw [uniqueFrom]
    split
    · exact ih _
    · rw [List.pairwise_cons]
      exact ⟨fun y hy => uniqueFrom_fresh hy x (by simp), ih _⟩

theorem uniqueFrom_append (xs ys : List Value) : ∀ seen,
    uniqueFrom seen (xs ++ ys) = uniqueFrom seen xs ++ uniqueFrom (seen ++ uniqueFrom seen xs) ys := by
  induction xs with
  | nil => intro seen; simp [uniqueFrom]
  | cons x xs ih =>
    intro seen
    rw [List.cons_append, uniqueFrom, uniqueFrom]
    split
    · rw [ih]
    · rw [ih]; simp

theorem unique_append (xs ys : List Value) : unique (xs ++ ys) = unique xs ++ uniqueFrom (unique xs) ys := by
  simp [unique, uniqueFrom_append]

theorem uniqueFrom_covers (vs : List Value) (hw : ∀ v ∈ vs, WF v) : ∀ seen, ∀ v ∈ vs,
    ∃ r ∈ seen ++ uniqueFrom seen vs, equals r v = true := by
  induction vs with
  | nil => intro seen v h; simp at h
  | cons x xs ih =>
    intro seen v h
    have ih := ih (fun v hv => hw v (by simp [hv]))
    rw [uniqueFrom]
    rcases List.mem_cons.1 h with rfl | h
    · split
      · rename_i hs
        simp only [List.any_eq_true] at hs
        obtain ⟨y, hy, he⟩ := hs
        exact ⟨y, by simp [hy], he⟩
      · exact ⟨v, by simp, equals_refl (hw v (by simp))⟩
    · split
      · exact ih seen v h
      · obtain ⟨r, hr, he⟩ := ih (seen ++ [x]) v h
        exact ⟨r, by simpa using hr, he⟩

/-- `Unique` of a duplicate-free list is that list. -/
theorem uniqueFrom_id (vs : List Value) : ∀ seen, vs.Pairwise (fun a b => equals a b = false) →
    (∀ x ∈ seen, ∀ v ∈ vs, equals x v = false) → uniqueFrom seen vs = vs := by
  induction vs with
  | nil => intro seen _ _; rfl
  | cons x xs ih =>
    intro seen hp hs
    obtain ⟨h1, h2⟩ := List.pairwise_cons.1 hp
    rw [uniqueFrom, if_neg, ih _ h2]
    · intro y hy v hv
      rcases List.mem_append.1 hy with hy | hy
      · exact hs y hy v (by simp [hv])
      · simp at hy; subst hy; exact h1 v hv
    · simp only [List.any_eq_true, not_exists, not_and, Bool.not_eq_true]
      exact fun y hy => hs y hy x (by simp)

theorem unique_id {vs : List Value} (h : vs.Pairwise (fun a b => equals a b = false)) : unique vs = vs :=
  uniqueFrom_id vs [] h (by simp)

theorem unique_pairwise (vs : List Value) : (unique vs).Pairwise (fun a b => equals a b = false) :=
  uniqueFrom_pairwise vs []

theorem unique_unique_append (xs ys : List Value) : unique (unique xs ++ ys) = unique (xs ++ ys) := by
  rw [unique_append, unique_append, unique_id (unique_pairwise xs)]

theorem isNub_unique (xs : List Value) (hw : ∀ v ∈ xs, WF v) : IsNub xs (unique xs) := by
  refine ⟨uniqueFrom_sublist xs [], unique_pairwise xs, ?_⟩
  rintro pre ⟨post, rfl⟩
  refine ⟨unique pre, ?_, uniqueFrom_sublist pre [], ?_⟩
  · rw [unique_append]; exact List.prefix_append _ _
  · intro x hx
    obtain ⟨r, hr, he⟩ := uniqueFrom_covers pre (fun v hv => hw v (by simp [hv])) [] x hx
    exact ⟨r, by simpa [unique] using hr, he⟩

/-- The specification determines the list. -/
theorem isNub_eq {xs rs : List Value} (hw : ∀ v ∈ xs, WF v) (h : IsNub xs rs) : rs = unique xs := by
  induction xs using List.reverseRecOn generalizing rs with
  | nil => obtain ⟨h, _⟩ := h; simp at h; simp [h, unique, uniqueFrom]
  | append_singleton xs x ih =>
    obtain ⟨h1, h2, h3⟩ := h
    have hwx : ∀ v ∈ xs, WF v := fun v hv => hw v (by simp [hv])
    have wx : WF x := hw x (by simp)
    obtain ⟨rp, ⟨t, rfl⟩, hsub, hcov⟩ := h3 xs (List.prefix_append _ _)
    rw [List.pairwise_append] at h2
    obtain ⟨p1, p2, p3⟩ := h2
    have hrw : ∀ r ∈ rp, WF r := fun r hr => hwx r (hsub.subset hr)
    have hrp : IsNub xs rp := by
      refine ⟨hsub, p1, ?_⟩
      rintro pre hpre
      obtain ⟨rq, hq1, hq2, hq3⟩ := h3 pre (hpre.trans (List.prefix_append _ _))
      rcases List.prefix_or_prefix_of_prefix hq1 (List.prefix_append rp t) with hq | hq
      · exact ⟨rq, hq, hq2, hq3⟩
      · refine ⟨rp, List.prefix_rfl, hq.sublist.trans hq2, ?_⟩
        obtain ⟨post, rfl⟩ := hpre
        exact fun x hx => hcov x (by simp [hx])
    have e := ih hwx hrp
    -- the tail holds `x` if it is new and nothing otherwise
    rw [unique_append, ← e]
    congr 1
    have tsub : t.Sublist [x] := by
      have tx : ∀ y ∈ t, y = x := by
        intro y hy
        have hy' : y ∈ xs ++ [x] := h1.subset (by simp [hy])
        rcases List.mem_append.1 hy' with hy' | hy'
        · obtain ⟨r, hr, he⟩ := hcov y hy'
          rw [p3 r hr y hy] at he; simp at he
        · simpa using hy'
      match t, p2, tx with
      | [], _, _ => simp
      | [y], _, tx => rw [tx y (by simp)]
      | y :: z :: _, p2, tx =>
        have := (List.pairwise_cons.1 p2).1 z (by simp)
        rw [tx y (by simp), tx z (by simp), equals_refl wx] at this
        simp at this
    simp only [uniqueFrom]
    by_cases hx : rp.any (fun r => equals r x) = true
    · rw [if_pos hx]
      simp only [List.any_eq_true] at hx
      obtain ⟨r, hr, he⟩ := hx
      match t, tsub with
      | [], _ => rfl
      | [y], ts =>
        have : y = x := by simpa using ts
        subst this
        rw [p3 r hr y (by simp)] at he; simp at he
      | y :: z :: w, ts => have := ts.length_le; simp at this
    · rw [if_neg hx]
      match t, tsub with
      | [y], ts => simpa using ts
      | y :: z :: w, ts => have := ts.length_le; simp at this
      | [], _ =>
        exfalso
        obtain ⟨rq, hq1, hq2, hq3⟩ := h3 (xs ++ [x]) List.prefix_rfl
        obtain ⟨r, hr, he⟩ := hq3 x (by simp)
        apply hx
        simp only [List.any_eq_true]
        refine ⟨r, ?_, he⟩
        have := hq1.subset hr
        simpa using this

/-! ### `Flatten` -/

mutual
theorem leaves_flattenV : ∀ v : Value, Leaves v (flattenV v)
  | .arr es => by rw [flattenV]; exact .arr (leavesL_flatten es)
  | .null => by simpa [flattenV] using Leaves.leaf (v := .null) (by simp)
  | .bool b => by simpa [flattenV] using Leaves.leaf (v := .bool b) (by simp)
  | .int b => by simpa [flattenV] using Leaves.leaf (v := .int b) (by simp)
  | .str b => by simpa [flattenV] using Leaves.leaf (v := .str b) (by simp)
  | .map b => by simpa [flattenV] using Leaves.leaf (v := .map b) (by simp)
  | .sensitive b => by simpa [flattenV] using Leaves.leaf (v := .sensitive b) (by simp)
  | .opaque b => by simpa [flattenV] using Leaves.leaf (v := .opaque b) (by simp)
theorem leavesL_flatten : ∀ vs : List Value, LeavesL vs (flatten vs)
  | [] => by rw [flatten]; exact .nil
  | v :: vs => by rw [flatten]; exact .cons (leaves_flattenV v) (leavesL_flatten vs)
end

theorem convertUnique_eq (v : Value) : convertUnique v = flattenV v := by
  cases v <;> simp [convertUnique, flattenV]

mutual
theorem flattenV_no_arr : ∀ (v : Value), ∀ x ∈ flattenV v, ∀ es, x ≠ .arr es
  | .arr es, x, h => by rw [flattenV] at h; exact flatten_no_arr es x h
  | .null, x, h => by simp [flattenV] at h; simp [h]
  | .bool b, x, h => by simp [flattenV] at h; simp [h]
  | .int b, x, h => by simp [flattenV] at h; simp [h]
  | .str b, x, h => by simp [flattenV] at h; simp [h]
  | .map b, x, h => by simp [flattenV] at h; simp [h]
  | .sensitive b, x, h => by simp [flattenV] at h; simp [h]
  | .opaque b, x, h => by simp [flattenV] at h; simp [h]
theorem flatten_no_arr : ∀ (vs : List Value), ∀ x ∈ flatten vs, ∀ es, x ≠ .arr es
  | [], x, h => by simp [flatten] at h
  | v :: vs, x, h => by
    rw [flatten, List.mem_append] at h
    rcases h with h | h
    · exact flattenV_no_arr v x h
    · exact flatten_no_arr vs x h
end

theorem flatten_flat (vs : List Value) (h : ∀ x ∈ vs, ∀ es, x ≠ .arr es) : flatten vs = vs := by
  induction vs with
  | nil => rw [flatten]
  | cons v vs ih =>
    rw [flatten, ih (fun x hx => h x (by simp [hx]))]
    have := h v (by simp)
    cases v <;> simp_all [flattenV]

mutual
theorem flattenV_WF : ∀ (v : Value), WF v → ∀ x ∈ flattenV v, WF x
  | .arr es, hw, x, h => by rw [flattenV] at h; exact flatten_WF es (WF_arr.1 hw) x h
  | .null, hw, x, h => by simp [flattenV] at h; simp [h]
  | .bool b, hw, x, h => by simp [flattenV] at h; rw [h]; exact hw
  | .int b, hw, x, h => by simp [flattenV] at h; rw [h]; exact hw
  | .str b, hw, x, h => by simp [flattenV] at h; rw [h]; exact hw
  | .map b, hw, x, h => by simp [flattenV] at h; rw [h]; exact hw
  | .sensitive b, hw, x, h => by simp [flattenV] at h; rw [h]; exact hw
  | .opaque b, hw, x, h => by simp [flattenV] at h; rw [h]; exact hw
theorem flatten_WF : ∀ (vs : List Value), (∀ v ∈ vs, WF v) → ∀ x ∈ flatten vs, WF x
  | [], _, x, h => by simp [flatten] at h
  | v :: vs, hw, x, h => by
    rw [flatten, List.mem_append] at h
    rcases h with h | h
    · exact flattenV_WF v (hw v (by simp)) x h
    · exact flatten_WF vs (fun v hv => hw v (by simp [hv])) x h
end

theorem flatten_eq_flatMap (vs : List Value) : flatten vs = vs.flatMap flattenV := by
  induction vs with
  | nil => simp [flatten]
  | cons v vs ih => simp [flatten, ih]

/-! ### `deep` -/

theorem equalsList_length : ∀ {as bs : List Value}, equalsList as bs = true → as.length = bs.length
  | [], [], _ => rfl
  | a :: as, b :: bs, h => by
    rw [equalsList, Bool.and_eq_true] at h
    simp [equalsList_length h.2]
  | [], _ :: _, h => by simp [equalsList] at h
  | _ :: _, [], h => by simp [equalsList] at h

/-- If `Unique` of an extension is `Equals` to a list then it is that list. -/
theorem unique_append_equals {as bs : List Value} (ha : ∀ v ∈ as, WF v) (hb : ∀ v ∈ bs, WF v)
    (h : equalsList (unique (as ++ bs)) as = true) : unique (as ++ bs) = as := by
  have hwu : ∀ v ∈ unique (as ++ bs), WF v := by
    intro v hv
    rcases List.mem_append.1 (unique_mem hv) with h | h
    · exact ha v h
    · exact hb v h
  have pair : as.Pairwise (fun a b => equals a b = false) := by
    have aux : ∀ (us vs : List Value), (∀ v ∈ us, WF v) → (∀ v ∈ vs, WF v) → equalsList us vs = true →
        us.Pairwise (fun a b => equals a b = false) → vs.Pairwise (fun a b => equals a b = false) := by
      intro us
      induction us with
      | nil => intro vs _ _ h _; cases vs with
        | nil => simp
        | cons => simp [equalsList] at h
      | cons u us ih =>
        intro vs hu hv h hp
        cases vs with
        | nil => simp [equalsList] at h
        | cons v vs =>
          rw [equalsList, Bool.and_eq_true] at h
          obtain ⟨p1, p2⟩ := List.pairwise_cons.1 hp
          have wu := hu u (by simp)
          have wv := hv v (by simp)
          refine List.pairwise_cons.2 ⟨?_, ih vs (fun x hx => hu x (by simp [hx])) (fun x hx => hv x (by simp [hx])) h.2 p2⟩
          intro y hy
          have corr : ∀ (us vs : List Value), equalsList us vs = true → ∀ y ∈ vs, ∃ x ∈ us, equals x y = true := by
            intro us
            induction us with
            | nil => intro vs h y hy; cases vs with
              | nil => simp at hy
              | cons => simp [equalsList] at h
            | cons u us ih =>
              intro vs h y hy
              cases vs with
              | nil => simp at hy
              | cons v vs =>
                rw [equalsList, Bool.and_eq_true] at h
                rcases List.mem_cons.1 hy with rfl | hy
                · exact ⟨u, by simp, h.1⟩
                · obtain ⟨x, hx, he⟩ := ih vs h.2 y hy
                  exact ⟨x, by simp [hx], he⟩
          obtain ⟨x, hx, he⟩ := corr us vs h.2 y hy
          have wx := hu x (by simp [hx])
          have wy := hv y (by simp [hy])
          rw [← equals_congr_left wu wv wy h.1, ← equals_congr_right wx wy wu he]
          exact p1 x hx
    exact aux _ _ hwu ha h (unique_pairwise _)
  rw [unique_append, unique_id pair] at h ⊢
  have := equalsList_length h
  simp at this
  simp [this]

theorem deepEntries_keys (as bs : Entries) : (deepEntries as bs).map (·.1) = as.map (·.1) := by
  induction as with
  | nil => rw [deepEntries]
  | cons e as ih => obtain ⟨k, v⟩ := e; rw [deepEntries]; simp [ih]

/-- What `deep` computes for an entry present in both maps. -/
def deepValue (v bv : Value) : Value := if (deep v bv).2 then (deep v bv).1 else v

theorem deepEntries_eq (as bs : Entries) : deepEntries as bs =
    as.map (fun e => (e.1, match Entries.get bs e.1 with | some bv => deepValue e.2 bv | none => e.2)) := by
  induction as with
  | nil => rw [deepEntries]; rfl
  | cons e as ih =>
    obtain ⟨k, v⟩ := e
    rw [deepEntries, ih, List.map_cons]
    rfl

theorem deep_false {a b : Value} (h : (deep a b).2 = false) : (deep a b).1 = a := by
  unfold deep at h ⊢
  split
  · simp only at h ⊢
    split
    · rename_i hh; rw [if_pos hh] at h; simp at h
    · rfl
  · simp only at h ⊢
    split
    · rename_i h1; rw [if_pos h1] at h
      split
      · rename_i h2; rw [if_pos h2] at h; simp at h
      · rename_i h2; rw [if_neg h2] at h
        split
        · rename_i h3; rw [if_pos h3] at h; simp at h
        · rfl
    · rfl
  · rfl

theorem deepValue_eq (v bv : Value) : deepValue v bv = (deep v bv).1 := by
  unfold deepValue
  split
  · rfl
  · rename_i h
    rw [deep_false (by simpa using h)]

/-- The entries of the merged map. -/
def deepMap (as bs : Entries) : Entries :=
  Entries.putAll (Entries.putAll [] (deepEntries as bs)) (bs.filter (fun e => !Entries.containsKey as e.1))

theorem deep_map (as bs : Entries) : deep (.map as) (.map bs) =
    if equals (.map as) (.map (deepMap as bs)) then (.map as, false) else (.map (deepMap as bs), true) := by
  have aux : ∀ (c : Bool) (x y : Value × Bool), (if (!c) = true then x else y) = if c = true then y else x := by
    intro c x y; cases c <;> rfl
  rw [deep]
  exact aux _ _ _

theorem Entries.WF_filter {bs : Entries} (h : WF (.map bs)) (p : Value × Value → Bool) : WF (.map (bs.filter p)) := by
  obtain ⟨we, hu⟩ := WF_map.1 h
  exact WF_map.2 ⟨fun e he => we e (List.mem_of_mem_filter he), List.Pairwise.filter _ hu⟩

theorem get_filter_not_contains {as bs : Entries} (ha : WF (.map as)) (hb : WF (.map bs)) {k : Value} (hk : WF k) :
    Entries.get (bs.filter (fun e => !Entries.containsKey as e.1)) k =
      if Entries.containsKey as k then none else Entries.get bs k := by
  have cong : ∀ l, WF l → equals k l = true → Entries.containsKey as l = Entries.containsKey as k := by
    intro l hl h
    rw [Entries.containsKey_iff_get, Entries.containsKey_iff_get, Entries.get_congr ha hk hl h]
  have we := (WF_map.1 hb).1
  clear hb
  induction bs with
  | nil => simp [Entries.get_nil]
  | cons e bs ih =>
    have ih := ih (fun e he => we e (by simp [he]))
    have w1 := (we e (by simp)).1
    rw [List.filter_cons]
    by_cases hc : Entries.containsKey as e.1 = true
    · simp only [hc, Bool.not_true, Bool.false_eq_true, ↓reduceIte, ih, Entries.get_cons]
      by_cases hkc : Entries.containsKey as k = true
      · simp [hkc]
      · have : equals k e.1 = false := by
          by_contra h
          simp only [Bool.not_eq_false] at h
          rw [cong _ w1 h] at hc
          exact hkc hc
        simp [hkc, this]
    · simp only [hc, Bool.not_false, ↓reduceIte, Entries.get_cons, ih]
      by_cases he : equals k e.1 = true
      · rw [cong _ w1 he] at hc
        simp [he, hc]
      · simp [he]

/-- `deep` preserves well-formedness; what a merged map holds. -/
theorem deep_WF_get : ∀ (n : Nat), (∀ (a b : Value), sizeOf a < n → WF a → WF b → WF (deep a b).1) := by
  intro n
  induction n with
  | zero => intro a b h; omega
  | succ n ih =>
    intro a b hn ha hb
    match a, b with
    | .map as, .map bs =>
      rw [deep_map]
      split
      · exact ha
      · have wde : WF (.map (deepEntries as bs)) := by
          rw [WF_map, Entries.uniqueKeys_iff, deepEntries_keys, ← Entries.uniqueKeys_iff]
          refine ⟨?_, (WF_map.1 ha).2⟩
          rw [deepEntries_eq]
          intro e he
          obtain ⟨⟨k, v⟩, hm, rfl⟩ := List.mem_map.1 he
          have w := Entries.WF_of_mem ha hm
          refine ⟨w.1, ?_⟩
          simp only
          split
          · rename_i bv hbv
            rw [deepValue_eq]
            refine ih _ _ ?_ w.2 (Entries.WF_of_get hb hbv)
            have := (sizeOf_map_mem hm).2
            simp only at this
            omega
          · exact w.2
        exact Entries.WF_putAll (Entries.WF_putAll Entries.WF_nil (WF_map.1 wde).1)
          (WF_map.1 (Entries.WF_filter hb _)).1
    | .arr as, .arr bs =>
      rw [deep]
      split
      · split
        · exact hb
        · simp only
          split
          · rw [WF_arr]
            intro v hv
            rcases List.mem_append.1 (unique_mem hv) with h | h
            · exact WF_arr.1 ha v h
            · exact WF_arr.1 hb v h
          · exact ha
      · exact ha
    | .map as, .null => simpa [deep] using ha
    | .map as, .bool _ => simpa [deep] using ha
    | .map as, .int _ => simpa [deep] using ha
    | .map as, .str _ => simpa [deep] using ha
    | .map as, .arr _ => simpa [deep] using ha
    | .map as, .sensitive _ => simpa [deep] using ha
    | .map as, .opaque _ => simpa [deep] using ha
    | .arr as, .null => simpa [deep] using ha
    | .arr as, .bool _ => simpa [deep] using ha
    | .arr as, .int _ => simpa [deep] using ha
    | .arr as, .str _ => simpa [deep] using ha
    | .arr as, .map _ => simpa [deep] using ha
    | .arr as, .sensitive _ => simpa [deep] using ha
    | .arr as, .opaque _ => simpa [deep] using ha
    | .null, _ => simpa [deep] using ha
    | .bool _, _ => simpa [deep] using ha
    | .int _, _ => simpa [deep] using ha
    | .str _, _ => simpa [deep] using ha
    | .sensitive _, _ => simpa [deep] using ha
    | .opaque _, _ => simpa [deep] using ha

theorem deep_WF {a b : Value} (ha : WF a) (hb : WF b) : WF (deep a b).1 := deep_WF_get _ a b (Nat.lt_succ_self _) ha hb

theorem WF_deepEntries {as bs : Entries} (ha : WF (.map as)) (hb : WF (.map bs)) : WF (.map (deepEntries as bs)) := by
  rw [WF_map, Entries.uniqueKeys_iff, deepEntries_keys, ← Entries.uniqueKeys_iff]
  refine ⟨?_, (WF_map.1 ha).2⟩
  rw [deepEntries_eq]
  intro e he
  obtain ⟨⟨k, v⟩, hm, rfl⟩ := List.mem_map.1 he
  have w := Entries.WF_of_mem ha hm
  refine ⟨w.1, ?_⟩
  simp only
  split
  · rename_i bv hbv
    rw [deepValue_eq]
    exact deep_WF w.2 (Entries.WF_of_get hb hbv)
  · exact w.2

theorem get_deepEntries {as bs : Entries} (ha : WF (.map as)) (hb : WF (.map bs)) {k : Value} (hk : WF k) :
    Entries.get (deepEntries as bs) k = (Entries.get as k).map
      (fun x => match Entries.get bs k with | some y => (deep x y).1 | none => x) := by
  rw [deepEntries_eq]
  have we := (WF_map.1 ha).1
  clear ha
  induction as with
  | nil => simp [Entries.get_nil]
  | cons e as ih =>
    have ih := ih (fun e he => we e (by simp [he]))
    rw [List.map_cons, Entries.get_cons, Entries.get_cons, ih]
    by_cases h : equals k e.1 = true
    · rw [if_pos h, if_pos h, Option.map_some, Entries.get_congr hb hk (we e (by simp)).1 h]
      simp only [deepValue_eq]
    · rw [if_neg h, if_neg h]

theorem get_deepMap {as bs : Entries} (ha : WF (.map as)) (hb : WF (.map bs)) {k : Value} (hk : WF k) :
    Entries.get (deepMap as bs) k = match Entries.get as k, Entries.get bs k with
      | some x, some y => some (deep x y).1
      | some x, none => some x
      | none, y => y := by
  have wde := WF_deepEntries ha hb
  unfold deepMap
  rw [Entries.get_putAll (Entries.WF_putAll Entries.WF_nil (WF_map.1 wde).1) (Entries.WF_filter hb _) hk,
    get_filter_not_contains ha hb hk, Entries.putAll_nil_left wde, get_deepEntries ha hb hk, Entries.containsKey_iff_get]
  cases Entries.get as k <;> cases Entries.get bs k <;> simp

theorem WF_deepMap {as bs : Entries} (ha : WF (.map as)) (hb : WF (.map bs)) : WF (.map (deepMap as bs)) :=
  Entries.WF_putAll (Entries.WF_putAll Entries.WF_nil (WF_map.1 (WF_deepEntries ha hb)).1)
    (WF_map.1 (Entries.WF_filter hb _)).1

theorem putAll_keys_fresh (fs : Entries) : ∀ es : Entries, WF (.map (es ++ fs)) → Entries.putAll es fs = es ++ fs := by
  induction fs with
  | nil => intro es _; simp [Entries.putAll]
  | cons f fs ih =>
    intro es h
    have hc : Entries.containsKey es f.1 = false := by
      obtain ⟨we, hu⟩ := WF_map.1 h
      rw [UniqueKeys, List.pairwise_append] at hu
      simp only [Entries.containsKey, List.any_eq_false, Bool.not_eq_true]
      intro e he
      rw [equals_comm (we f (by simp)).1 (we e (by simp [he])).1]
      exact hu.2.2 e he f (by simp)
    show Entries.putAll (Entries.put es f.1 f.2) fs = _
    rw [Entries.put_of_not_contains hc, ih]
    · simp
    · simpa using h

/-- The merged map: the entries of `as` in order, then the new ones of `bs` in order. -/
theorem deepMap_eq {as bs : Entries} (ha : WF (.map as)) (hb : WF (.map bs)) :
    deepMap as bs = deepEntries as bs ++ bs.filter (fun e => !Entries.containsKey as e.1) := by
  have wde := WF_deepEntries ha hb
  unfold deepMap
  rw [Entries.putAll_nil_left wde, putAll_keys_fresh]
  rw [WF_map]
  refine ⟨?_, ?_⟩
  · intro e he
    rcases List.mem_append.1 he with he | he
    · exact Entries.WF_of_mem wde he
    · exact Entries.WF_of_mem (Entries.WF_filter hb _) he
  · rw [UniqueKeys, List.pairwise_append]
    refine ⟨(WF_map.1 wde).2, (WF_map.1 (Entries.WF_filter hb _)).2, ?_⟩
    intro e he f hf
    have hk : e.1 ∈ (deepEntries as bs).map (·.1) := List.mem_map_of_mem he
    rw [deepEntries_keys] at hk
    obtain ⟨g, hg, hge⟩ := List.mem_map.1 hk
    have hn := (List.mem_filter.1 hf).2
    simp only [Bool.not_eq_true', Entries.containsKey, List.any_eq_false, Bool.not_eq_true] at hn
    rw [← hge, equals_comm (Entries.WF_of_mem ha hg).1 (Entries.WF_of_mem hb (List.mem_of_mem_filter hf)).1]
    exact hn g hg

/-- The flag and the value of `deep`. -/
theorem deep_true {a b : Value} (ha : WF a) (hb : WF b) (h : (deep a b).2 = true) : equals a (deep a b).1 = false := by
  match a, b with
  | .map as, .map bs =>
    rw [deep_map] at h ⊢
    split
    · rename_i he; rw [if_pos he] at h; simp at h
    · rename_i he; simpa using he
  | .arr as, .arr bs =>
    rw [deep] at h ⊢
    split
    · rename_i h1; rw [if_pos h1] at h
      split
      · rename_i h2
        have : as = [] := List.length_eq_zero_iff.1 h2
        subst this
        cases bs with
        | nil => simp at h1
        | cons => simp [equals, equalsList]
      · rename_i h2; rw [if_neg h2] at h
        simp only at h ⊢
        split
        · rename_i h3
          rw [equals_comm ha]
          · simpa using h3
          · rw [WF_arr]
            intro v hv
            rcases List.mem_append.1 (unique_mem hv) with h | h
            · exact WF_arr.1 ha v h
            · exact WF_arr.1 hb v h
        · rename_i h3; rw [if_neg h3] at h; simp at h
    · rename_i h1; rw [if_neg h1] at h; simp at h
  | .map as, .null => simp [deep] at h
  | .map as, .bool _ => simp [deep] at h
  | .map as, .int _ => simp [deep] at h
  | .map as, .str _ => simp [deep] at h
  | .map as, .arr _ => simp [deep] at h
  | .map as, .sensitive _ => simp [deep] at h
  | .map as, .opaque _ => simp [deep] at h
  | .arr as, .null => simp [deep] at h
  | .arr as, .bool _ => simp [deep] at h
  | .arr as, .int _ => simp [deep] at h
  | .arr as, .str _ => simp [deep] at h
  | .arr as, .map _ => simp [deep] at h
  | .arr as, .sensitive _ => simp [deep] at h
  | .arr as, .opaque _ => simp [deep] at h
  | .null, _ => simp [deep] at h
  | .bool _, _ => simp [deep] at h
  | .int _, _ => simp [deep] at h
  | .str _, _ => simp [deep] at h
  | .sensitive _, _ => simp [deep] at h
  | .opaque _, _ => simp [deep] at h

/-- The value of `deep` on maps, exactly: also when `a` itself is returned. -/
theorem get_deep {as bs : Entries} (ha : WF (.map as)) (hb : WF (.map bs)) :
    ∃ rs, (deep (.map as) (.map bs)).1 = .map rs ∧ ∀ k, WF k →
      Entries.get rs k = match Entries.get as k, Entries.get bs k with
        | some x, some y => some (deep x y).1
        | some x, none => some x
        | none, y => y := by
  rw [deep_map]
  split
  · rename_i he
    refine ⟨as, rfl, ?_⟩
    intro k hk
    have hm := get_deepMap ha hb hk
    have hh := (Entries.equals_map_iff ha (WF_deepMap ha hb)).1 he
    cases hA : Entries.get as k with
    | some x =>
      obtain ⟨w, hw, hxw⟩ := hh.2 k x hk hA
      cases hB : Entries.get bs k with
      | none => rfl
      | some y =>
        simp only [hA, hB] at hm
        rw [hm] at hw
        simp only [Option.some.injEq] at hw
        have wx := Entries.WF_of_get ha hA
        have wy := Entries.WF_of_get hb hB
        cases hf : (deep x y).2 with
        | false => simp [deep_false hf]
        | true =>
          have := deep_true wx wy hf
          rw [hw, hxw] at this; simp at this
    | none =>
      simp only
      -- no new key: the lengths agree
      have hlen := hh.1
      rw [deepMap_eq ha hb] at hlen
      have hl : (deepEntries as bs).length = as.length := by
        have := congrArg List.length (deepEntries_keys as bs)
        simpa using this
      simp only [List.length_append, hl] at hlen
      have hnil : bs.filter (fun e => !Entries.containsKey as e.1) = [] := by
        apply List.length_eq_zero_iff.1; omega
      have := get_filter_not_contains ha hb hk
      rw [hnil, Entries.get_nil, Entries.containsKey_iff_get, hA] at this
      simpa using this
  · exact ⟨_, rfl, fun k hk => get_deepMap ha hb hk⟩

/-- The value of `deep` on non-empty arrays. -/
theorem deep_arr {as bs : List Value} (ha : WF (.arr as)) (hb : WF (.arr bs)) (h1 : as ≠ []) (h2 : bs ≠ []) :
    (deep (.arr as) (.arr bs)).1 = .arr (unique (as ++ bs)) := by
  rw [deep, if_pos (List.length_pos_iff.2 h2), if_neg (by simpa using h1)]
  simp only
  split
  · rfl
  · rename_i h
    simp only [equals, Bool.not_eq_eq_eq_not, Bool.not_true, Bool.not_eq_false] at h
    rw [unique_append_equals (WF_arr.1 ha) (WF_arr.1 hb) h]

/-! ### Merging found values -/

/-- The fold that `doLookup` performs. -/
def mergeAll (s : Strategy) : List Value → Option Value
  | [] => none
  | v :: vs => some (vs.foldl s.merge (s.convertValue v))

/-- Running the loop of `doLookup` over sources that do not panic. -/
theorem mergeLoop_ok {ι : Type} (s : Strategy) (g : ι → Res (Option Value)) : ∀ (vs : List ι) (memo : Option Value)
    (tr : List ι), (∀ v ∈ vs, ∃ r, g v = .ok r) →
    mergeLoop (m := Traced ι) s (consult g) memo vs tr =
      (.ok (match memo with
        | none => mergeAll s (found g vs)
        | some a => some ((found g vs).foldl s.merge a)), tr ++ vs) := by
  intro vs
  induction vs with
  | nil => intro memo tr _; cases memo <;> simp [mergeLoop, pure, found, mergeAll]
  | cons v vs ih =>
    intro memo tr h
    obtain ⟨r, hr⟩ := h v (by simp)
    have h' : ∀ v ∈ vs, ∃ r, g v = .ok r := fun x hx => h x (by simp [hx])
    rw [mergeLoop]
    simp only [bind, consult, hr]
    cases r with
    | none =>
      simp only
      have hf : found g (v :: vs) = found g vs := by simp [found, hr]
      rw [hf]
      have := ih memo (tr ++ [v]) h'
      simpa using this
    | some x =>
      have hf : found g (v :: vs) = x :: found g vs := by simp [found, hr]
      rw [hf]
      cases memo with
      | none =>
        have := ih (some (s.convertValue x)) (tr ++ [v]) h'
        simpa [mergeAll] using this
      | some a =>
        have := ih (some (s.merge a x)) (tr ++ [v]) h'
        simpa using this

/-- Running the loop of `doLookup` when a source panics. -/
theorem mergeLoop_panic {ι : Type} (s : Strategy) (g : ι → Res (Option Value)) (x : ι) (e : Err) (post : List ι)
    (hx : g x = .panic e) : ∀ (pre : List ι) (memo : Option Value) (tr : List ι), (∀ v ∈ pre, ∃ r, g v = .ok r) →
    mergeLoop (m := Traced ι) s (consult g) memo (pre ++ x :: post) tr = (.panic e, tr ++ pre ++ [x]) := by
  intro pre
  induction pre with
  | nil => intro memo tr _; simp [mergeLoop, bind, consult, hx]
  | cons v vs ih =>
    intro memo tr h
    obtain ⟨r, hr⟩ := h v (by simp)
    have h' : ∀ v ∈ vs, ∃ r, g v = .ok r := fun x hx => h x (by simp [hx])
    rw [List.cons_append, mergeLoop]
    simp only [bind, consult, hr]
    cases r with
    | none => have := ih memo (tr ++ [v]) h'; simpa using this
    | some y => cases memo with
      | none => have := ih (some (s.convertValue y)) (tr ++ [v]) h'; simpa using this
      | some a => have := ih (some (s.merge a y)) (tr ++ [v]) h'; simpa using this

theorem firstLoop_run {ι : Type} (g : ι → Res (Option Value)) : ∀ (vs : List ι) (tr : List ι),
    (∃ pre x post v, vs = pre ++ x :: post ∧ (∀ y ∈ pre, g y = .ok none) ∧ g x = .ok (some v) ∧
      firstLoop (m := Traced ι) (consult g) vs tr = (.ok (some v), tr ++ pre ++ [x])) ∨
    (∃ pre x post e, vs = pre ++ x :: post ∧ (∀ y ∈ pre, g y = .ok none) ∧ g x = .panic e ∧
      firstLoop (m := Traced ι) (consult g) vs tr = (.panic e, tr ++ pre ++ [x])) ∨
    ((∀ y ∈ vs, g y = .ok none) ∧ firstLoop (m := Traced ι) (consult g) vs tr = (.ok none, tr ++ vs)) := by
  intro vs
  induction vs with
  | nil => intro tr; exact .inr (.inr ⟨by simp, by simp [firstLoop, pure]⟩)
  | cons v vs ih =>
    intro tr
    cases hv : g v with
    | panic e => exact .inr (.inl ⟨[], v, vs, e, rfl, by simp, hv, by simp [firstLoop, bind, consult, hv]⟩)
    | ok r =>
      cases r with
      | some x => exact .inl ⟨[], v, vs, x, rfl, by simp, hv, by simp [firstLoop, bind, consult, hv, pure]⟩
      | none =>
        have hstep : firstLoop (m := Traced ι) (consult g) (v :: vs) tr =
            firstLoop (m := Traced ι) (consult g) vs (tr ++ [v]) := by simp [firstLoop, bind, consult, hv]
        rw [hstep]
        rcases ih (tr ++ [v]) with ⟨pre, x, post, w, rfl, h1, h2, h3⟩ | ⟨pre, x, post, e, rfl, h1, h2, h3⟩ | ⟨h1, h2⟩
        · refine .inl ⟨v :: pre, x, post, w, rfl, ?_, h2, by simp [h3]⟩
          intro y hy
          rcases List.mem_cons.1 hy with rfl | hy
          · exact hv
          · exact h1 y hy
        · refine .inr (.inl ⟨v :: pre, x, post, e, rfl, ?_, h2, by simp [h3]⟩)
          intro y hy
          rcases List.mem_cons.1 hy with rfl | hy
          · exact hv
          · exact h1 y hy
        · refine .inr (.inr ⟨?_, by simp [h2]⟩)
          intro y hy
          rcases List.mem_cons.1 hy with rfl | hy
          · exact hv
          · exact h1 y hy

end Hiera
