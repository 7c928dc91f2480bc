/- Merges of values, grouped in another way. -/
import Verif.Spec.Grouped
import Verif.Props.Merge

set_option autoImplicit false

namespace Hiera
open Spec Value

/-! ### Maps with the same keys -/

theorem entries_of_keys {es : Entries} (h : WF (.map es)) :
    es = (es.map (·.1)).filterMap (fun k => (Entries.get es k).map (fun v => (k, v))) := by
  have key : ∀ fs : Entries, (∀ e ∈ fs, e ∈ es) →
      fs = (fs.map (·.1)).filterMap (fun k => (Entries.get es k).map (fun v => (k, v))) := by
    intro fs
    induction fs with
    | nil => intro _; rfl
    | cons e fs ih =>
      intro hm
      have he := hm e (List.mem_cons_self ..)
      have w := Entries.WF_of_mem h he
      rw [List.map_cons, List.filterMap_cons, Entries.get_of_mem h he w.1 (equals_refl w.1)]
      simp only [Option.map_some]
      rw [← ih (fun e he => hm e (List.mem_cons_of_mem _ he))]
  exact key es (fun _ h => h)

theorem entries_ext {es fs : Entries} (he : WF (.map es)) (hf : WF (.map fs)) (hk : es.map (·.1) = fs.map (·.1))
    (hg : ∀ k, WF k → Entries.get es k = Entries.get fs k) : es = fs := by
  rw [entries_of_keys he, entries_of_keys hf, hk]
  apply List.filterMap_congr
  intro k hk
  obtain ⟨e, hm, rfl⟩ := List.mem_map.1 hk
  rw [hg _ (Entries.WF_of_mem hf hm).1]

theorem deepMap_keys {as bs : Entries} (ha : WF (.map as)) (hb : WF (.map bs)) :
    (deepMap as bs).map (·.1) = as.map (·.1) ++ (bs.map (·.1)).filter (fun k => (Entries.get as k).isNone) := by
  rw [deepMap_eq ha hb, List.map_append, deepEntries_keys, List.filter_map]
  congr 2
  apply List.filter_congr
  intro e _
  simp [Entries.containsKey_iff_get]

/-- The merged map, exactly. -/
theorem deep_maps {as bs : Entries} (ha : WF (.map as)) (hb : WF (.map bs)) :
    (deep (.map as) (.map bs)).1 = .map (deepMap as bs) := by
  obtain ⟨rs, h1, h2⟩ := C10_order as bs ha hb
  obtain ⟨rs', h3, h4⟩ := get_deep ha hb
  have hr : rs' = rs := by
    have h1 : (deep (.map as) (.map bs)).1 = .map rs := h1
    rw [h3] at h1
    injection h1
  subst hr
  have hw : WF (.map rs') := h3 ▸ deep_WF ha hb
  rw [h3, entries_ext hw (WF_deepMap ha hb) (by rw [h2, deepMap_keys ha hb])
    (fun k hk => by rw [h4 k hk, get_deepMap ha hb hk])]

/-! ### Kinds of values -/

theorem same_symm {a b : Value} (h : SameContainer a b) : SameContainer b a := by
  cases a <;> cases b <;> trivial

theorem same_trans {a b c : Value} (h : SameContainer a b) (h' : SameContainer b c) : SameContainer a c := by
  cases a <;> cases b <;> first | exact h.elim | (cases c <;> trivial)

theorem deep_other {a b : Value} (h : ¬SameContainer a b) : (deep a b).1 = a := by
  cases a <;> cases b <;> first | exact absurd trivial h | simp [deep]

/-- Values of the same kind: what one can be merged with, the other can be merged with. -/
def Kin (a b : Value) : Prop := ∀ w, SameContainer a w ↔ SameContainer b w

theorem Kin.refl (a : Value) : Kin a a := fun _ => .rfl

theorem Kin.trans {a b c : Value} (h : Kin a b) (h' : Kin b c) : Kin a c := fun w => (h w).trans (h' w)

theorem Kin.right {a b : Value} (h : Kin a b) (w : Value) : SameContainer w a ↔ SameContainer w b :=
  ⟨fun x => same_symm ((h w).1 (same_symm x)), fun x => same_symm ((h w).2 (same_symm x))⟩

theorem deep_kin {a b : Value} (ha : WF a) (hb : WF b) : Kin (deep a b).1 a := by
  by_cases h : SameContainer a b
  · have hk : SameContainer (deep a b).1 a := by
      match a, b, h with
      | .map as, .map bs, _ => rw [deep_maps ha hb]; trivial
      | .arr as, .arr bs, _ =>
        by_cases h1 : as = []
        · subst h1
          cases bs <;> simp [deep, SameContainer]
        · by_cases h2 : bs = []
          · subst h2; simp [deep, SameContainer]
          · rw [deep_arr ha hb h1 h2]; trivial
    exact fun w => ⟨fun x => same_trans (same_symm hk) x, fun x => same_trans hk x⟩
  · rw [deep_other h]; exact .refl _

theorem valueAt_map (k : Value) (path : List Value) (es : Entries) :
    valueAt (k :: path) (.map es) = (Entries.get es k).bind (valueAt path) := rfl

theorem valueAt_cons_some {k : Value} {path : List Value} {v y : Value} (h : valueAt (k :: path) v = some y) :
    ∃ es w, v = .map es ∧ Entries.get es k = some w ∧ valueAt path w = some y := by
  cases v with
  | map es =>
    rw [valueAt_map] at h
    cases hg : Entries.get es k with
    | none => rw [hg] at h; cases h
    | some w => rw [hg] at h; exact ⟨es, w, rfl, hg, h⟩
  | _ => simp [valueAt] at h

/-- What is at a path of a deep merge is of the kind of what one of the two has there. -/
theorem deep_at : ∀ (path : List Value) {a b y : Value}, (∀ k ∈ path, WF k) → WF a → WF b → valueAt path (deep a b).1 = some y →
    ∃ y', (valueAt path a = some y' ∨ valueAt path b = some y') ∧ Kin y y'
  | [], a, b, y, _, ha, hb, h => by
    cases h
    exact ⟨a, .inl rfl, deep_kin ha hb⟩
  | k :: path, a, b, y, hp, ha, hb, h => by
    by_cases hs : SameContainer a b
    · match a, b, hs with
      | .map as, .map bs, _ =>
        have hk := hp k (List.mem_cons_self ..)
        rw [deep_maps ha hb, valueAt_map, get_deepMap ha hb hk] at h
        rw [valueAt_map, valueAt_map]
        cases hA : Entries.get as k with
        | none =>
          rw [hA] at h
          exact ⟨y, .inr h, .refl _⟩
        | some x =>
          cases hB : Entries.get bs k with
          | none =>
            rw [hA, hB] at h
            exact ⟨y, .inl h, .refl _⟩
          | some z =>
            rw [hA, hB] at h
            exact deep_at path (fun k hk => hp k (List.mem_cons_of_mem _ hk)) (Entries.WF_of_get ha hA) (Entries.WF_of_get hb hB) h
      | .arr as, .arr bs, _ =>
        obtain ⟨es, w, h1, _⟩ := valueAt_cons_some h
        have := deep_kin ha hb (.map es)
        rw [h1] at this
        exact absurd (this.1 trivial) (fun h => h.elim)
    · rw [deep_other hs] at h
      exact ⟨y, .inl h, .refl _⟩

/-! ### Three values -/

theorem uniqueFrom_unique {ys : List Value} (hy : ∀ y ∈ ys, WF y) : ∀ {seen seen' : List Value}, (∀ x ∈ seen, WF x) → (∀ x ∈ seen', WF x) →
    (∀ x, WF x → seen'.any (fun s => equals s x) = true → seen.any (fun s => equals s x) = true) →
    uniqueFrom seen (uniqueFrom seen' ys) = uniqueFrom seen ys := by
  induction ys with
  | nil => intros; rfl
  | cons y ys ih =>
    intro seen seen' h1 h2 hs
    have hw := hy y (List.mem_cons_self ..)
    have ih := fun {a b} => ih (fun y h => hy y (List.mem_cons_of_mem _ h)) (seen := a) (seen' := b)
    rw [uniqueFrom]
    by_cases h : seen'.any (fun x => equals x y) = true
    · rw [if_pos h, uniqueFrom, if_pos (hs y hw h), ih h1 h2 hs]
    · rw [if_neg h, uniqueFrom, uniqueFrom]
      have h2' : ∀ x ∈ seen' ++ [y], WF x := by
        intro x hx
        rcases List.mem_append.1 hx with h | h
        · exact h2 x h
        · rw [List.mem_singleton.1 h]; exact hw
      by_cases h' : seen.any (fun x => equals x y) = true
      · rw [if_pos h', if_pos h']
        refine ih h1 h2' (fun x hx hany => ?_)
        rw [List.any_append, Bool.or_eq_true] at hany
        rcases hany with ha | ha
        · exact hs x hx ha
        · simp only [List.any_cons, List.any_nil, Bool.or_false] at ha
          obtain ⟨w, hw1, hw2⟩ := List.any_eq_true.1 h'
          exact List.any_eq_true.2 ⟨w, hw1, equals_trans (h1 w hw1) hw hx hw2 ha⟩
      · rw [if_neg h', if_neg h']
        congr 1
        refine ih ?_ h2' (fun x hx hany => ?_)
        · intro x hx
          rcases List.mem_append.1 hx with h | h
          · exact h1 x h
          · rw [List.mem_singleton.1 h]; exact hw
        · rw [List.any_append, Bool.or_eq_true] at hany ⊢
          rcases hany with ha | ha
          · exact .inl (hs x hx ha)
          · exact .inr ha

theorem unique_append_unique {xs ys : List Value} (hx : ∀ x ∈ xs, WF x) (hy : ∀ y ∈ ys, WF y) :
    unique (xs ++ unique ys) = unique (xs ++ ys) := by
  rw [unique_append, unique_append]
  congr 1
  exact uniqueFrom_unique hy (fun x h => hx x (unique_mem h)) (fun _ h => nomatch h) (fun _ _ h => by simp at h)

theorem deep_arrs_assoc {as bs cs : List Value} (ha : WF (.arr as)) (hb : WF (.arr bs)) (hc : WF (.arr cs)) :
    (deep (deep (.arr as) (.arr bs)).1 (.arr cs)).1 = (deep (.arr as) (deep (.arr bs) (.arr cs)).1).1 := by
  have left : ∀ xs : List Value, (deep (.arr []) (.arr xs)).1 = .arr xs := by
    intro xs; cases xs <;> simp [deep]
  have right : ∀ xs : List Value, (deep (.arr xs) (.arr [])).1 = .arr xs := by
    intro xs; simp [deep]
  by_cases h1 : as = []
  · rw [h1, left]
    have : ∃ ys, (deep (.arr bs) (.arr cs)).1 = .arr ys := by
      have := (deep_kin hb hc (.arr [])).2 trivial
      revert this
      cases (deep (.arr bs) (.arr cs)).1 <;> simp [SameContainer]
    obtain ⟨ys, hy⟩ := this
    rw [hy, left]
  · by_cases h2 : bs = []
    · rw [h2, right, left]
    · by_cases h3 : cs = []
      · rw [h3, right]
        have : ∃ ys, (deep (.arr as) (.arr bs)).1 = .arr ys := ⟨_, deep_arr ha hb h1 h2⟩
        obtain ⟨ys, hy⟩ := this
        rw [hy, right]
      · have hu : ∀ xs ys : List Value, WF (.arr xs) → WF (.arr ys) → WF (.arr (unique (xs ++ ys))) := by
          intro xs ys hx hy
          rw [WF_arr]
          intro v hv
          rcases List.mem_append.1 (unique_mem hv) with h | h
          · exact WF_arr.1 hx v h
          · exact WF_arr.1 hy v h
        have hne : ∀ xs ys : List Value, xs ≠ [] → unique (xs ++ ys) ≠ [] := by
          intro xs ys hx
          cases xs with
          | nil => exact absurd rfl hx
          | cons x xs => simp [unique, uniqueFrom]
        rw [deep_arr ha hb h1 h2, deep_arr (hu _ _ ha hb) hc (hne _ _ h1) h3, deep_arr hb hc h2 h3,
          deep_arr ha (hu _ _ hb hc) h1 (hne _ _ h2), unique_unique_append,
          unique_append_unique (WF_arr.1 ha), List.append_assoc]
        intro y hy
        rcases List.mem_append.1 hy with h | h
        · exact WF_arr.1 hb y h
        · exact WF_arr.1 hc y h

/-- Deep merges of three values may be grouped either way. -/
theorem deep_assoc : ∀ (n : Nat) (a b c : Value), sizeOf a < n → WF a → WF b → WF c → Between a b c →
    (deep (deep a b).1 c).1 = (deep a (deep b c).1).1 := by
  intro n
  induction n with
  | zero => intro _ _ _ h; exact absurd h (Nat.not_lt_zero _)
  | succ n ih =>
    intro a b c hn ha hb hc hbt
    have top : SameContainer a c → SameContainer a b := hbt [] a b c (fun _ h => nomatch h) rfl rfl rfl
    by_cases hab : SameContainer a b
    · by_cases hac : SameContainer a c
      · match a, b, c, hab, hac with
        | .arr as, .arr bs, .arr cs, _, _ => exact deep_arrs_assoc ha hb hc
        | .map as, .map bs, .map cs, _, _ =>
          have hab' := WF_deepMap ha hb
          have hbc' := WF_deepMap hb hc
          rw [deep_maps ha hb, deep_maps hab' hc, deep_maps hb hc, deep_maps ha hbc']
          congr 1
          refine entries_ext (WF_deepMap hab' hc) (WF_deepMap ha hbc') ?_ ?_
          · have hwf : ∀ e ∈ cs, WF e.1 := fun e he => (Entries.WF_of_mem hc he).1
            rw [deepMap_keys hab' hc, deepMap_keys ha hb, deepMap_keys ha hbc', deepMap_keys hb hc, List.append_assoc,
              List.filter_append, List.filter_filter]
            congr 2
            apply List.filter_congr
            intro k hk
            obtain ⟨e, he, rfl⟩ := List.mem_map.1 hk
            rw [get_deepMap ha hb (hwf e he)]
            cases Entries.get as e.1 <;> cases Entries.get bs e.1 <;> rfl
          · intro k hk
            rw [get_deepMap hab' hc hk, get_deepMap ha hbc' hk, get_deepMap ha hb hk, get_deepMap hb hc hk]
            cases hA : Entries.get as k with
            | none => cases Entries.get bs k <;> rfl
            | some x =>
              cases hB : Entries.get bs k with
              | none => cases Entries.get cs k <;> rfl
              | some y =>
                cases hC : Entries.get cs k with
                | none => rfl
                | some z =>
                  simp only [Option.some.injEq]
                  obtain ⟨e, hm, _, hx⟩ := Entries.get_mem hA
                  refine ih x y z ?_ (Entries.WF_of_get ha hA) (Entries.WF_of_get hb hB) (Entries.WF_of_get hc hC) ?_
                  · have := (sizeOf_map_mem hm).2
                    rw [← hx]
                    omega
                  · intro path x' y' z' hp h1 h2 h3
                    refine hbt (k :: path) x' y' z' ?_ ?_ ?_ ?_
                    · intro l hl
                      rcases List.mem_cons.1 hl with rfl | hl
                      · exact hk
                      · exact hp l hl
                    · rw [valueAt_map, hA]; exact h1
                    · rw [valueAt_map, hB]; exact h2
                    · rw [valueAt_map, hC]; exact h3
      · have hbc : ¬SameContainer b c := fun h => hac (same_trans hab h)
        rw [deep_other hbc, deep_other (fun h => hac ((deep_kin ha hb c).1 h))]
    · have hac : ¬SameContainer a c := fun h => hab (top h)
      rw [deep_other hab, deep_other hac, deep_other]
      exact fun h => hab (((deep_kin hb hc).right a).1 h)

/-! ### Merges of several values -/

theorem refCombine_snoc (st : Strategy) {xs : List Value} {A : Value} (h : refCombine st xs = some A) (v : Value) :
    refCombine st (xs ++ [v]) = some (st.merge A v) := by
  cases xs with
  | nil => cases h
  | cons x xs =>
    cases h
    simp [refCombine, List.foldl_append]

theorem refCombine_some (st : Strategy) {xs : List Value} (h : xs ≠ []) : ∃ A, refCombine st xs = some A := by
  cases xs with
  | nil => exact absurd rfl h
  | cons x xs => exact ⟨_, rfl⟩

/-- What a merge of values needs for its parts to be grouped in another way. -/
def Groupable (st : Strategy) (vs : List Value) : Prop := (∀ v ∈ vs, WF v) ∧ NoneBetween st vs

theorem Groupable.sub {st : Strategy} {vs ws : List Value} (h : Groupable st vs) (hs : ws.Sublist vs) : Groupable st ws := by
  refine ⟨fun v hv => h.1 v (hs.subset hv), ?_⟩
  cases st with
  | first => trivial
  | unique => trivial
  | hash => exact fun a b c hl => h.2 a b c (hl.trans hs)
  | deep o => exact fun a b c hl => h.2 a b c (hl.trans hs)

theorem deep_combined (o : Entries) : ∀ vs : List Value, (∀ v ∈ vs, WF v) → ∀ V, refCombine (.deep o) vs = some V →
    WF V ∧ ∀ path y, (∀ k ∈ path, WF k) → valueAt path V = some y → ∃ v ∈ vs, ∃ y', valueAt path v = some y' ∧ Kin y y' := by
  intro vs
  induction vs using List.reverseRecOn with
  | nil => intro _ V h; cases h
  | append_singleton vs v ih =>
    intro hw V h
    by_cases hv : vs = []
    · subst hv
      cases h
      exact ⟨hw v (by simp), fun path y _ hy => ⟨v, by simp, y, hy, .refl _⟩⟩
    · obtain ⟨A, hA⟩ := refCombine_some (.deep o) hv
      rw [refCombine_snoc _ hA] at h
      cases h
      obtain ⟨h1, h2⟩ := ih (fun w hw' => hw w (by simp [hw'])) A hA
      have h3 : WF v := hw v (by simp)
      refine ⟨deep_WF h1 h3, fun path y hp hy => ?_⟩
      obtain ⟨y', hy' | hy', hk⟩ := deep_at path hp h1 h3 hy
      · obtain ⟨w, hw1, z, hz, hk'⟩ := h2 path y' hp hy'
        exact ⟨w, by simp [hw1], z, hz, hk.trans hk'⟩
      · exact ⟨v, by simp, y', hy', hk⟩

theorem three_sublist {xs ys : List Value} {a b c : Value} (ha : a ∈ xs) (hb : b ∈ ys) : [a, b, c].Sublist (xs ++ (ys ++ [c])) := by
  have : [a, b, c] = [a] ++ ([b] ++ [c]) := rfl
  rw [this]
  exact (List.singleton_sublist.2 ha).append ((List.singleton_sublist.2 hb).append (List.Sublist.refl _))

/-- Merging the merge of the last values is merging them all. -/
def Joins (st : Strategy) : Prop := ∀ xs ys A B, Groupable st (xs ++ ys) → refCombine st xs = some A → refCombine st ys = some B →
  refCombine st (xs ++ ys) = some (st.merge A B)

/-- If three values may be grouped either way, so may any number of them. -/
theorem joins_of_assoc {st : Strategy} (hc : ∀ v, st.convertValue v = v)
    (h : ∀ xs ys A B c, Groupable st (xs ++ (ys ++ [c])) → refCombine st xs = some A → refCombine st ys = some B →
      st.merge (st.merge A B) c = st.merge A (st.merge B c)) : Joins st := by
  intro xs ys
  induction ys using List.reverseRecOn with
  | nil => intro A B _ _ h; cases h
  | append_singleton ys c ih =>
    intro A B hg hA hB
    by_cases hy : ys = []
    · subst hy
      rw [List.nil_append] at hB ⊢
      rw [show refCombine st [c] = some (st.convertValue c) from rfl, hc] at hB
      cases hB
      exact refCombine_snoc st hA c
    · obtain ⟨B', hB'⟩ := refCombine_some st hy
      rw [refCombine_snoc _ hB'] at hB
      cases hB
      have h1 := ih A B' (hg.sub (by rw [← List.append_assoc]; exact List.sublist_append_left ..)) hA hB'
      rw [← List.append_assoc, refCombine_snoc st h1, h xs ys A B' c hg hA hB']

theorem joins_deep (o : Entries) : Joins (.deep o) := by
  refine joins_of_assoc (fun _ => rfl) ?_
  intro xs ys A B c hg hA hB
  obtain ⟨wA, hA'⟩ := deep_combined o xs (fun v hv => hg.1 v (by simp [hv])) A hA
  obtain ⟨wB, hB'⟩ := deep_combined o ys (fun v hv => hg.1 v (by simp [hv])) B hB
  refine deep_assoc _ A B c (Nat.lt_succ_self _) wA wB (hg.1 c (by simp)) ?_
  intro path x y z hp hx hy hz hs
  obtain ⟨a, ha, x', hx', kx⟩ := hA' path x hp hx
  obtain ⟨b, hb, y', hy', ky⟩ := hB' path y hp hy
  have := hg.2 a b c (three_sublist ha hb) path x' y' z hp hx' hy' hz ((kx z).1 hs)
  exact (kx y).2 ((ky.right x').2 this)

/-! Hashes. -/

theorem putAll_keys : ∀ (fs es : Entries), WF (.map es) → WF (.map fs) →
    (Entries.putAll es fs).map (·.1) = es.map (·.1) ++ (fs.map (·.1)).filter (fun k => (Entries.get es k).isNone) := by
  intro fs
  induction fs with
  | nil => intro es _ _; simp [Entries.putAll]
  | cons f fs ih =>
    intro es he hf
    obtain ⟨w, hu⟩ := WF_map.1 hf
    have wf := w f (by simp)
    have hf' : WF (.map fs) := WF_map.2 ⟨fun e h => w e (by simp [h]), (List.pairwise_cons.1 hu).2⟩
    show (Entries.putAll (Entries.put es f.1 f.2) fs).map (·.1) = _
    rw [ih _ (Entries.WF_put he wf.1 wf.2) hf', Entries.put_keys, Entries.containsKey_iff_get, List.map_cons, List.filter_cons]
    have hfil : (fs.map (·.1)).filter (fun k => (Entries.get (Entries.put es f.1 f.2) k).isNone) =
        (fs.map (·.1)).filter (fun k => (Entries.get es k).isNone) := by
      apply List.filter_congr
      intro k hk
      obtain ⟨e, hm, rfl⟩ := List.mem_map.1 hk
      have hne := (List.pairwise_cons.1 hu).1 e hm
      rw [Entries.get_put he wf.1 (w e (by simp [hm])).1]
      simp [hne]
    rw [hfil]
    cases Entries.get es f.1 <;> simp

theorem merge_keys {es fs : Entries} (he : WF (.map es)) (hf : WF (.map fs)) :
    (Entries.merge es fs).map (·.1) = es.map (·.1) ++ (fs.map (·.1)).filter (fun k => (Entries.get es k).isNone) := by
  rw [Entries.merge_eq_putAll hf, putAll_keys fs es he hf]

theorem hashes_assoc {as bs cs : Entries} (ha : WF (.map as)) (hb : WF (.map bs)) (hc : WF (.map cs)) :
    Entries.merge cs (Entries.merge bs as) = Entries.merge (Entries.merge cs bs) as := by
  have h1 := Entries.WF_merge hb ha
  have h2 := Entries.WF_merge hc hb
  refine entries_ext (Entries.WF_merge hc h1) (Entries.WF_merge h2 ha) ?_ ?_
  · rw [merge_keys hc h1, merge_keys hb ha, merge_keys h2 ha, merge_keys hc hb, List.append_assoc, List.filter_append, List.filter_filter]
    congr 2
    apply List.filter_congr
    intro k hk
    obtain ⟨e, he, rfl⟩ := List.mem_map.1 hk
    rw [Entries.get_merge hc hb (Entries.WF_of_mem ha he).1]
    cases Entries.get cs e.1 <;> cases Entries.get bs e.1 <;> rfl
  · intro k hk
    rw [Entries.get_merge hc h1 hk, Entries.get_merge hb ha hk, Entries.get_merge h2 ha hk, Entries.get_merge hc hb hk]
    cases Entries.get as k <;> cases Entries.get bs k <;> rfl

theorem isMap_or (v : Value) : IsMap v ∨ ¬IsMap v := Classical.em _

theorem hash_left {a : Value} (h : ¬IsMap a) (b : Value) : Strategy.hash.merge a b = a := by
  cases a with
  | map es => exact absurd ⟨es, rfl⟩ h
  | _ => rfl

theorem hash_right (a : Value) {b : Value} (h : ¬IsMap b) : Strategy.hash.merge a b = a := by
  cases b with
  | map es => exact absurd ⟨es, rfl⟩ h
  | _ => cases a <;> rfl

theorem hash_combined : ∀ vs : List Value, (∀ v ∈ vs, WF v) → ∀ V, refCombine .hash vs = some V → WF V ∧ ∃ v ∈ vs, IsMap V ↔ IsMap v := by
  intro vs
  induction vs using List.reverseRecOn with
  | nil => intro _ V h; cases h
  | append_singleton vs v ih =>
    intro hw V h
    by_cases hv : vs = []
    · subst hv
      cases h
      exact ⟨hw v (by simp), v, by simp, .rfl⟩
    · obtain ⟨A, hA⟩ := refCombine_some .hash hv
      rw [refCombine_snoc _ hA] at h
      cases h
      obtain ⟨h1, w, hw1, hw2⟩ := ih (fun w hw' => hw w (by simp [hw'])) A hA
      have h3 : WF v := hw v (by simp)
      rcases isMap_or A with ⟨as, rfl⟩ | hn
      · rcases isMap_or v with ⟨bs, rfl⟩ | hn
        · exact ⟨Entries.WF_merge h3 h1, w, by simp [hw1], iff_of_true ⟨_, rfl⟩ (hw2.1 ⟨_, rfl⟩)⟩
        · rw [hash_right _ hn]; exact ⟨h1, w, by simp [hw1], hw2⟩
      · rw [hash_left hn]; exact ⟨h1, w, by simp [hw1], hw2⟩

theorem joins_hash : Joins .hash := by
  refine joins_of_assoc (fun _ => rfl) ?_
  intro xs ys A B c hg hA hB
  obtain ⟨wA, a, ha, hA'⟩ := hash_combined xs (fun v hv => hg.1 v (by simp [hv])) A hA
  obtain ⟨wB, b, hb, hB'⟩ := hash_combined ys (fun v hv => hg.1 v (by simp [hv])) B hB
  have hn := hg.2 a b c (three_sublist ha hb)
  have wc := hg.1 c (by simp)
  rcases isMap_or A with hAm | hAm
  · rcases isMap_or B with hBm | hBm
    · rcases isMap_or c with hcm | hcm
      · obtain ⟨as, rfl⟩ := hAm
        obtain ⟨bs, rfl⟩ := hBm
        obtain ⟨cs, rfl⟩ := hcm
        show Value.map (Entries.merge cs (Entries.merge bs as)) = Value.map (Entries.merge (Entries.merge cs bs) as)
        rw [hashes_assoc wA wB wc]
      · rw [hash_right _ hcm, hash_right _ hcm]
    · have hcm : ¬IsMap c := fun h => hBm (hB'.2 (hn (hA'.1 hAm) h))
      rw [hash_right _ hcm, hash_right _ hcm]
  · rw [hash_left hAm, hash_left hAm, hash_left hAm]

/-! Duplicate-free lists. -/

theorem unique_combined {vs : List Value} {V : Value} (h : refCombine .unique vs = some V) :
    ∃ xs, V = .arr xs ∧ (∀ x ∈ xs, ∀ es, x ≠ .arr es) ∧ (∀ x ∈ xs, x ∈ flatten vs) ∧ unique xs = unique (flatten vs) := by
  cases vs with
  | nil => cases h
  | cons v vs =>
    cases h
    have hfl : ∀ x ∈ flattenV v, ∀ es, x ≠ .arr es := flattenV_no_arr v
    show ∃ xs, vs.foldl Strategy.unique.merge (.arr (convertUnique v)) = .arr xs ∧ _
    rw [convertUnique_eq]
    by_cases hv : vs = []
    · subst hv
      exact ⟨flattenV v, rfl, hfl, fun x hx => by simpa [flatten] using hx, by simp [flatten]⟩
    · rw [unique_fold vs _ hfl hv]
      refine ⟨_, rfl, fun x hx => ?_, fun x hx => ?_, ?_⟩
      · have hx := unique_mem hx
        rw [← show flatten (v :: vs) = flattenV v ++ flatten vs by simp [flatten]] at hx
        exact flatten_no_arr _ x hx
      · have hx := unique_mem hx
        simpa [flatten] using hx
      · rw [unique_id (unique_pairwise _)]
        simp [flatten]

theorem joins_unique : Joins .unique := by
  intro xs ys A B hg hA hB
  obtain ⟨as, rfl, ha1, ha2, ha3⟩ := unique_combined hA
  obtain ⟨bs, rfl, hb1, hb2, hb3⟩ := unique_combined hB
  cases ys with
  | nil => cases hB
  | cons y ys =>
    have hf : refCombine .unique (xs ++ (y :: ys)) = some ((y :: ys).foldl Strategy.unique.merge (.arr as)) := by
      cases xs with
      | nil => cases hA
      | cons x xs =>
        simp only [refCombine, Option.some.injEq] at hA
        simp only [refCombine, List.cons_append, List.foldl_append, hA]
    rw [hf, unique_fold _ as ha1 (by simp)]
    simp only [Strategy.merge, convertUnique]
    rw [flatten_flat as ha1, flatten_flat bs hb1]
    have wf : ∀ x ∈ flatten (y :: ys), WF x := flatten_WF _ (fun v hv => hg.1 v (by simp only [List.mem_append]; exact .inr hv))
    have wa : ∀ x ∈ as, WF x := fun x hx => flatten_WF _ (fun v hv => hg.1 v (List.mem_append_left _ hv)) x (ha2 x hx)
    have wb : ∀ x ∈ bs, WF x := fun x hx => wf x (hb2 x hx)
    rw [← unique_append_unique wa wb, hb3, unique_append_unique wa wf]

theorem joins {st : Strategy} (h : st ≠ .first) : Joins st := by
  cases st with
  | first => exact absurd rfl h
  | unique => exact joins_unique
  | hash => exact joins_hash
  | deep o => exact joins_deep o

theorem convert_combined {st : Strategy} {vs : List Value} {V : Value} (h : refCombine st vs = some V) : st.convertValue V = V := by
  cases st with
  | unique =>
    obtain ⟨xs, rfl, h1, _⟩ := unique_combined h
    simp only [Strategy.convertValue, convertUnique]
    rw [flatten_flat xs h1]
  | _ => rfl

/-! ### Groups -/

/-- What a group of values counts for: their merge, or the only one as it is. -/
inductive CountsAs (st : Strategy) : List Value → Option Value → Prop
  | merged {g} : CountsAs st g (refCombine st g)
  | only {v} : CountsAs st [v] (some v)

theorem regroup_from {st : Strategy} (hst : st ≠ .first) {gs : List (List Value)} {os : List (Option Value)} (h : List.Forall₂ (CountsAs st) gs os) :
    ∀ xs A, refCombine st xs = some A → Groupable st (xs ++ gs.flatten) →
      some ((os.flatMap Option.toList).foldl st.merge A) = refCombine st (xs ++ gs.flatten) := by
  induction h with
  | nil =>
    intro xs A hA _
    rw [List.flatten_nil, List.append_nil, hA]
    rfl
  | @cons g o gs os hp _ ih =>
    intro xs A hA hg
    rw [List.flatMap_cons, List.foldl_append, List.flatten_cons, ← List.append_assoc]
    rw [List.flatten_cons, ← List.append_assoc] at hg
    cases hp with
    | merged =>
      cases hB : refCombine st g with
      | none =>
        have : g = [] := by cases g with | nil => rfl | cons => cases hB
        subst this
        rw [List.append_nil] at hg ⊢
        exact ih xs A hA hg
      | some B =>
        exact ih _ _ (joins hst xs g A B (hg.sub (List.sublist_append_left ..)) hA hB) hg
    | only => exact ih _ _ (refCombine_snoc st hA _) hg

/-- Values may be merged in groups. -/
theorem regroup {st : Strategy} (hst : st ≠ .first) {gs : List (List Value)} {os : List (Option Value)} (h : List.Forall₂ (CountsAs st) gs os)
    (hg : Groupable st gs.flatten) : refCombine st (os.flatMap Option.toList) = refCombine st gs.flatten := by
  induction h with
  | nil => rfl
  | @cons g o gs os hp hr ih =>
    rw [List.flatMap_cons, List.flatten_cons]
    rw [List.flatten_cons] at hg
    cases hp with
    | merged =>
      cases hB : refCombine st g with
      | none =>
        have : g = [] := by cases g with | nil => rfl | cons => cases hB
        subst this
        exact ih hg
      | some B =>
        rw [← regroup_from hst hr g B hB hg]
        show some ((os.flatMap Option.toList).foldl st.merge (st.convertValue B)) = _
        rw [convert_combined hB]
    | only =>
      rw [← regroup_from hst hr _ _ rfl hg]
      rfl

end Hiera
