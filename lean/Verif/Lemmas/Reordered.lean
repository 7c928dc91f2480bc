/- Reordered values are the equal values, and merges of equal values are equal. -/
import Verif.Spec.Reordered
import Verif.Lemmas.Repeated

set_option autoImplicit false

namespace Hiera
open Value Spec

/-! ### Reordered values are equal -/

theorem perm_WF {es fs : Entries} (h : es.Perm fs) (hw : WF (.map es)) : WF (.map fs) := by
  obtain ⟨h1, h2⟩ := WF_map.1 hw
  refine WF_map.2 ⟨fun e he => h1 e (h.mem_iff.2 he), ?_⟩
  have sym : es.Pairwise (fun e f => equals e.1 f.1 = false ∧ equals f.1 e.1 = false) :=
    List.Pairwise.imp_of_mem (fun ha hb h => ⟨h, by rw [equals_comm (h1 _ hb).1 (h1 _ ha).1]; exact h⟩) h2
  exact List.Pairwise.imp (fun h => h.1) ((h.pairwise_iff (fun h => ⟨h.2, h.1⟩)).1 sym)

theorem perm_equals {es fs : Entries} (h : es.Perm fs) (hw : WF (.map es)) : equals (.map es) (.map fs) = true := by
  have hw' := perm_WF h hw
  refine maps_equal hw hw' (fun k hk => ?_) (fun k v w hk hv hg => ?_)
  · rw [Entries.get_eq_none, Entries.get_eq_none]
    exact ⟨fun g e he => g e (h.mem_iff.2 he), fun g e he => g e (h.mem_iff.1 he)⟩
  · obtain ⟨e, he, h1, rfl⟩ := Entries.get_mem hv
    rw [Entries.get_of_mem hw' (h.mem_iff.1 he) hk h1] at hg
    cases hg
    exact equals_refl (WF_map.1 hw |>.1 e he).2

theorem entry_equals {es fs : Entries} {k l v w : Value} (hw : WF (.map (es ++ (k, v) :: fs))) (hl : WF l) (hv : WF w)
    (hk : equals k l = true) (he : equals v w = true) :
    WF (.map (es ++ (l, w) :: fs)) ∧ equals (.map (es ++ (k, v) :: fs)) (.map (es ++ (l, w) :: fs)) = true := by
  obtain ⟨h1, h2⟩ := WF_map.1 hw
  have wk : WF k := (h1 (k, v) (by simp)).1
  have w1 : ∀ e ∈ es ++ (l, w) :: fs, WF e.1 ∧ WF e.2 := fun e h => by
    rcases List.mem_append.1 h with h | h
    · exact h1 e (by simp [h])
    · rcases List.mem_cons.1 h with rfl | h
      · exact ⟨hl, hv⟩
      · exact h1 e (by simp [h])
  have w2 : WF (.map (es ++ (l, w) :: fs)) := by
    refine WF_map.2 ⟨w1, ?_⟩
    have h2 : (es ++ (k, v) :: fs).Pairwise (fun e f => equals e.1 f.1 = false) := h2
    show (es ++ (l, w) :: fs).Pairwise (fun e f => equals e.1 f.1 = false)
    rw [List.pairwise_append, List.pairwise_cons] at h2 ⊢
    obtain ⟨a, ⟨b, c⟩, d⟩ := h2
    refine ⟨a, ⟨fun f hf => ?_, c⟩, fun e he f hf => ?_⟩
    · rw [← equals_congr_left wk hl (h1 f (by simp [hf])).1 hk]
      exact b f hf
    · rcases List.mem_cons.1 hf with rfl | hf
      · show equals e.1 l = false
        rw [← equals_congr_right wk hl (h1 e (by simp [he])).1 hk]
        exact d e he (k, v) (by simp)
      · exact d e he f (by simp [hf])
  refine ⟨w2, maps_equal hw w2 (fun x hx => ?_) (fun x y z hx hy hz => ?_)⟩
  · rw [Entries.get_append, Entries.get_append, Entries.get_cons, Entries.get_cons, equals_congr_right wk hl hx hk]
    cases Entries.get es x <;> cases equals x l <;> simp
  · rw [Entries.get_append, Entries.get_cons, equals_congr_right wk hl hx hk] at hy
    rw [Entries.get_append, Entries.get_cons] at hz
    cases hg : Entries.get es x with
    | some u =>
      rw [hg] at hy hz
      cases hy
      cases hz
      exact equals_refl (Entries.WF_of_get hw (by rw [Entries.get_append, hg]; rfl))
    | none =>
      rw [hg] at hy hz
      cases hxl : equals x l with
      | true =>
        rw [hxl] at hy hz
        cases hy
        cases hz
        exact he
      | false =>
        rw [hxl] at hy hz
        have e : y = z := by
          have := hy.symm.trans hz
          simpa using this
        subst e
        refine equals_refl ?_
        obtain ⟨e, he, _, rfl⟩ := Entries.get_mem (es := fs) (k := x) (v := y) (by simpa using hy)
        exact (h1 e (by simp [he])).2

theorem reordered_equals {a b : Value} (h : Reordered a b) : WF a → WF b ∧ equals a b = true := by
  induction h with
  | same => exact fun h => ⟨h, equals_refl h⟩
  | also _ _ ih ih' =>
    intro h
    obtain ⟨h1, e1⟩ := ih h
    obtain ⟨h2, e2⟩ := ih' h1
    exact ⟨h2, equals_trans h h1 h2 e1 e2⟩
  | moved h => exact fun hw => ⟨perm_WF h hw, perm_equals h hw⟩
  | @element xs ys v w _ ih =>
    intro h
    have h := WF_arr.1 h
    obtain ⟨h1, e1⟩ := ih (h v (by simp))
    refine ⟨WF_arr.2 fun x hx => ?_, ?_⟩
    · rcases List.mem_append.1 hx with hx | hx
      · exact h x (by simp [hx])
      · rcases List.mem_cons.1 hx with rfl | hx
        · exact h1
        · exact h x (by simp [hx])
    · rw [equals]
      refine equalsList_append (equalsList_refl xs fun x hx => equals_refl (h x (by simp [hx]))) ?_
      rw [equalsList, e1, equalsList_refl ys fun x hx => equals_refl (h x (by simp [hx]))]
      rfl
  | @value es fs k v w _ ih =>
    intro h
    have hk := (WF_map.1 h).1 (k, v) (by simp)
    obtain ⟨h1, e1⟩ := ih hk.2
    exact entry_equals h hk.1 h1 (equals_refl hk.1) e1
  | @key es fs k l v _ ih =>
    intro h
    have hk := (WF_map.1 h).1 (k, v) (by simp)
    obtain ⟨h1, e1⟩ := ih hk.1
    exact entry_equals h h1 hk.2 e1 (equals_refl hk.2)
  | @hidden v w _ ih =>
    intro h
    have : WF v := by simpa [WF] using h
    obtain ⟨h1, e1⟩ := ih this
    exact ⟨by simpa [WF] using h1, by rw [equals]; exact e1⟩

/-! ### Equal values are reordered -/

theorem reordered_entries {n : Nat} (ih : ∀ (a b : Value), sizeOf a < n → WF a → WF b → equals a b = true → Reordered a b) :
    ∀ (es fs pre : Entries), (∀ e ∈ es, sizeOf e.1 < n ∧ sizeOf e.2 < n) → (∀ e ∈ es, WF e.1 ∧ WF e.2) → (∀ e ∈ fs, WF e.1 ∧ WF e.2) →
      es.Pairwise (fun e f => equals e.1 f.1 = false) → es.length = fs.length →
      (∀ e ∈ es, ∃ f ∈ fs, equals e.1 f.1 = true ∧ equals e.2 f.2 = true) → Reordered (.map (pre ++ es)) (.map (pre ++ fs))
  | [], [], _, _, _, _, _, _, _ => .same
  | [], _ :: _, _, _, _, _, _, h, _ => by simp at h
  | (k, v) :: es, fs, pre, hn, we, wf, hp, hlen, h => by
    obtain ⟨f, hf, e1, e2⟩ := h (k, v) (by simp)
    obtain ⟨q1, q2, rfl⟩ := List.append_of_mem hf
    obtain ⟨p1, p2⟩ := List.pairwise_cons.1 hp
    have wk := we (k, v) (by simp)
    have wff := wf f hf
    have sub : ∀ e ∈ q1 ++ q2, e ∈ q1 ++ f :: q2 := fun e he => by
      rcases List.mem_append.1 he with h | h <;> simp [h]
    have rest := reordered_entries ih es (q1 ++ q2) (pre ++ [(k, v)]) (fun e he => hn e (by simp [he])) (fun e he => we e (by simp [he]))
      (fun e he => wf e (sub e he)) p2 (by
        simp only [List.length_append, List.length_cons] at hlen ⊢
        omega) (fun e he => by
        obtain ⟨f', hf', g1, g2⟩ := h e (by simp [he])
        refine ⟨f', ?_, g1, g2⟩
        rcases List.mem_append.1 hf' with h | h
        · simp [h]
        · rcases List.mem_cons.1 h with rfl | h
          · exfalso
            have wE := we e (by simp [he])
            have := equals_trans wk.1 wff.1 wE.1 e1 (equals_symm wE.1 wff.1 g1)
            rw [p1 e he] at this
            cases this
          · simp [h])
    rw [List.append_assoc, List.append_assoc, List.singleton_append, List.singleton_append] at rest
    have s := hn (k, v) (by simp)
    refine .also rest (.also (.key (ih k f.1 s.1 wk.1 wff.1 e1)) (.also (.value (ih v f.2 s.2 wk.2 wff.2 e2)) (.moved ?_)))
    exact List.Perm.append_left pre List.perm_middle.symm

theorem reordered_elements {n : Nat} (ih : ∀ (a b : Value), sizeOf a < n → WF a → WF b → equals a b = true → Reordered a b) :
    ∀ (xs ys pre : List Value), (∀ x ∈ xs, sizeOf x < n) → (∀ x ∈ xs, WF x) → (∀ y ∈ ys, WF y) → equalsList xs ys = true →
      Reordered (.arr (pre ++ xs)) (.arr (pre ++ ys))
  | [], [], _, _, _, _, _ => .same
  | [], _ :: _, _, _, _, _, h => by simp [equalsList] at h
  | _ :: _, [], _, _, _, _, h => by simp [equalsList] at h
  | x :: xs, y :: ys, pre, hn, hx, hy, h => by
    rw [equalsList, Bool.and_eq_true] at h
    have rest := reordered_elements ih xs ys (pre ++ [x]) (fun z hz => hn z (by simp [hz])) (fun z hz => hx z (by simp [hz]))
      (fun z hz => hy z (by simp [hz])) h.2
    rw [List.append_assoc, List.append_assoc, List.singleton_append, List.singleton_append] at rest
    exact .also rest (.element (ih x y (hn x (by simp)) (hx x (by simp)) (hy y (by simp)) h.1))

theorem equals_reordered_below : ∀ (n : Nat) (a b : Value), sizeOf a < n → WF a → WF b → equals a b = true → Reordered a b
  | 0, _, _, h, _, _, _ => by omega
  | n + 1, a, b, hn, ha, hb, h => by
    have ih := equals_reordered_below n
    cases a with
    | map as =>
      obtain ⟨bs, rfl⟩ := equals_is_map h
      obtain ⟨hl, hg⟩ := (Entries.equals_map_iff ha hb).1 h
      refine reordered_entries ih as bs [] (fun e he => ?_) (WF_map.1 ha).1 (WF_map.1 hb).1 (WF_map.1 ha).2 hl (fun e he => ?_)
      · have := sizeOf_map_mem he
        omega
      · have we := (WF_map.1 ha).1 e he
        obtain ⟨w, hw, e'⟩ := hg e.1 e.2 we.1 (Entries.get_of_mem ha he we.1 (equals_refl we.1))
        obtain ⟨f, hf, h1, rfl⟩ := Entries.get_mem hw
        exact ⟨f, hf, h1, e'⟩
    | arr as =>
      obtain ⟨bs, rfl, hl⟩ := equals_is_arr h
      refine reordered_elements ih as bs [] (fun e he => ?_) (WF_arr.1 ha) (WF_arr.1 hb) hl
      have := sizeOf_arr_mem he
      omega
    | sensitive v =>
      cases b with
      | sensitive w =>
        rw [equals] at h
        refine .hidden (ih v w ?_ (by simpa [WF] using ha) (by simpa [WF] using hb) h)
        simp at hn
        omega
      | _ => simp [equals] at h
    | _ =>
      cases b <;> simp [equals] at h
      all_goals
        subst_vars
        exact .same

theorem equals_reordered {a b : Value} (ha : WF a) (hb : WF b) (h : equals a b = true) : Reordered a b :=
  equals_reordered_below _ a b (Nat.lt_succ_self _) ha hb h

/-! ### Merges of equal values -/

/-- Well-formed and equal. -/
def Eqv (a b : Value) : Prop := WF a ∧ WF b ∧ equals a b = true

mutual
theorem flattenV_equal : ∀ (a b : Value), equals a b = true → equalsList (flattenV a) (flattenV b) = true
  | .arr as, b, h => by
    obtain ⟨bs, rfl, hl⟩ := equals_is_arr h
    rw [flattenV, flattenV]
    exact flatten_equal as bs hl
  | .null, b, h => by cases b <;> simp_all [equals, flattenV, equalsList]
  | .bool _, b, h => by cases b <;> simp_all [equals, flattenV, equalsList]
  | .int _, b, h => by cases b <;> simp_all [equals, flattenV, equalsList]
  | .str _, b, h => by cases b <;> simp_all [equals, flattenV, equalsList]
  | .map _, b, h => by
    obtain ⟨bs, rfl⟩ := equals_is_map h
    simp [flattenV, equalsList, h]
  | .sensitive _, b, h => by cases b <;> simp_all [equals, flattenV, equalsList]
  | .opaque _, b, h => by cases b <;> simp_all [equals, flattenV, equalsList]
theorem flatten_equal : ∀ (as bs : List Value), equalsList as bs = true → equalsList (flatten as) (flatten bs) = true
  | [], [], _ => rfl
  | [], _ :: _, h => by simp [equalsList] at h
  | _ :: _, [], h => by simp [equalsList] at h
  | a :: as, b :: bs, h => by
    rw [equalsList, Bool.and_eq_true] at h
    rw [flatten, flatten]
    exact equalsList_append (flattenV_equal a b h.1) (flatten_equal as bs h.2)
end

theorem unique_equal {xs ys : List Value} (hx : ∀ x ∈ xs, WF x) (hy : ∀ y ∈ ys, WF y) (h : equalsList xs ys = true) :
    equals (.arr (unique xs)) (.arr (unique ys)) = true := by
  rw [equals]
  exact uniqueFrom_congr hx hy (by simp) (by simp) h rfl

theorem convert_equal (st : Strategy) {a b : Value} (h : Eqv a b) : Eqv (st.convertValue a) (st.convertValue b) := by
  refine ⟨convert_WF st h.1, convert_WF st h.2.1, ?_⟩
  cases st with
  | unique =>
    show equals (.arr (convertUnique a)) (.arr (convertUnique b)) = true
    rw [convertUnique_eq, convertUnique_eq, equals]
    exact flattenV_equal a b h.2.2
  | _ => exact h.2.2

theorem single_equal (st : Strategy) {a b : Value} (h : Eqv a b) : Eqv (st.single a) (st.single b) := by
  obtain ⟨ha, hb, e⟩ := h
  cases st with
  | unique =>
    cases a with
    | arr as =>
      obtain ⟨bs, rfl, hl⟩ := equals_is_arr e
      have wa := flatten_WF as (WF_arr.1 ha)
      have wb := flatten_WF bs (WF_arr.1 hb)
      exact ⟨WF_arr.2 fun x hx => wa x (unique_mem hx), WF_arr.2 fun x hx => wb x (unique_mem hx), unique_equal wa wb (flatten_equal as bs hl)⟩
    | _ =>
      cases b with
      | arr bs => simp [equals] at e
      | _ => exact ⟨ha, hb, e⟩
  | _ => exact ⟨ha, hb, e⟩

theorem merge_equal (st : Strategy) {a a' b b' : Value} (h : Eqv a a') (h' : Eqv b b') : Eqv (st.merge a b) (st.merge a' b') := by
  obtain ⟨wa, wa', e⟩ := h
  obtain ⟨wb, wb', f⟩ := h'
  refine ⟨merge_WF st wa wb, merge_WF st wa' wb', ?_⟩
  cases st with
  | first => exact e
  | unique =>
    show equals (.arr (unique (convertUnique a ++ convertUnique b))) (.arr (unique (convertUnique a' ++ convertUnique b'))) = true
    simp only [convertUnique_eq]
    have app : ∀ {x y : Value}, WF x → WF y → ∀ z ∈ flattenV x ++ flattenV y, WF z := fun hx hy z hz =>
      (List.mem_append.1 hz).elim (flattenV_WF _ hx z) (flattenV_WF _ hy z)
    exact unique_equal (app wa wb) (app wa' wb') (equalsList_append (flattenV_equal a a' e) (flattenV_equal b b' f))
  | hash =>
    cases a with
    | map as =>
      obtain ⟨as', rfl⟩ := equals_is_map e
      cases b with
      | map bs =>
        obtain ⟨bs', rfl⟩ := equals_is_map f
        show equals (.map (Entries.merge bs as)) (.map (Entries.merge bs' as')) = true
        refine maps_equal (Entries.WF_merge wb wa) (Entries.WF_merge wb' wa') (fun k hk => ?_) (fun k v w hk hv hw => ?_)
        · have ga := (get_equal wa wa' e hk).none_iff
          have gb := (get_equal wb wb' f hk).none_iff
          rw [Entries.get_merge wb wa hk, Entries.get_merge wb' wa' hk]
          cases h1 : Entries.get as k <;> cases h2 : Entries.get as' k <;> simp_all
        · have ga := get_equal wa wa' e hk
          have gb := get_equal wb wb' f hk
          rw [Entries.get_merge wb wa hk] at hv
          rw [Entries.get_merge wb' wa' hk] at hw
          cases h1 : Entries.get as k <;> cases h2 : Entries.get as' k <;> simp_all [EqO]
      | _ =>
        cases b' with
        | map bs' => simp [equals] at f
        | _ => exact e
    | _ =>
      cases a' with
      | map as' => simp [equals] at e
      | _ => exact e
  | deep o =>
    exact deepMerged_congr2 (C10_deep a b wa wb) wa wa' wb wb' (merge_WF (.deep o) wa wb) (merge_WF (.deep o) wa' wb') e f (C10_deep a' b' wa' wb')

theorem fold_equal (st : Strategy) {vs ws : List Value} (h : List.Forall₂ Eqv vs ws) : ∀ {a b : Value}, Eqv a b →
    Eqv (vs.foldl st.merge a) (ws.foldl st.merge b) := by
  induction h with
  | nil => exact fun h => h
  | cons h _ ih => exact fun hab => ih (merge_equal st hab h)

theorem combine_equal (st : Strategy) {vs ws : List Value} (h : List.Forall₂ Eqv vs ws) : Option.Rel Eqv (refCombine st vs) (refCombine st ws) := by
  cases h with
  | nil => exact .none
  | cons h t => exact .some (fold_equal st t (convert_equal st h))

theorem rel_map {f : Value → Value} (hf : ∀ {a b}, Eqv a b → Eqv (f a) (f b)) {x y : Option Value} (h : Option.Rel Eqv x y) :
    Option.Rel Eqv (x.map f) (y.map f) := by
  cases h with
  | none => exact .none
  | some h => exact .some (hf h)

/-! ### Levels with equal data -/

theorem valuesOf_equal {ls ms : List Level} {key : Str} (h : List.Forall₂ (fun l m => Option.Rel Eqv (l.has key) (m.has key)) ls ms) :
    List.Forall₂ Eqv (valuesOf ls key) (valuesOf ms key) := by
  induction h with
  | nil => exact .nil
  | @cons l m ls ms h _ ih =>
    rw [valuesOf_cons, valuesOf_cons]
    cases h1 : l.has key <;> cases h2 : m.has key <;> rw [h1, h2] at h <;> cases h
    · exact ih
    · rename_i h
      exact .cons h ih

theorem outcome_equal (st : Strategy) {ls ms : List Level} {key : Str} (hv : List.Forall₂ Eqv (valuesOf ls key) (valuesOf ms key))
    (hn : ls.length = ms.length) : Option.Rel Eqv (outcome st ls key) (outcome st ms key) := by
  cases st with
  | first =>
    show Option.Rel Eqv (valuesOf ls key).head? (valuesOf ms key).head?
    generalize valuesOf ls key = vs, valuesOf ms key = ws at hv ⊢
    cases hv with
    | nil => exact .none
    | cons h _ => exact .some h
  | unique | hash | deep =>
    match ls, ms, hn, hv with
    | [], [], _, _ => exact .none
    | [l], [m], _, hv =>
      refine rel_map (fun h => single_equal _ h) ?_
      rw [valuesOf_cons, valuesOf_cons] at hv
      cases h1 : l.has key <;> cases h2 : m.has key <;> rw [h1, h2] at hv <;> cases hv
      · exact .none
      · rename_i h _
        exact .some h
    | _ :: _ :: _, _ :: _ :: _, _, hv => exact combine_equal _ hv

/-- What the fields of equal values have. -/
theorem field_equal : ∀ (fs : List Str) {a b : Value}, Eqv a b → Option.Rel Eqv (fieldOf fs a) (fieldOf fs b)
  | [], _, _, h => .some h
  | f :: fs, a, b, ⟨ha, hb, h⟩ => by
    cases a with
    | map as =>
      obtain ⟨bs, rfl⟩ := equals_is_map h
      have hg := get_equal ha hb h (k := .str f) (by simp)
      show Option.Rel Eqv ((Entries.get as (.str f)).bind _) ((Entries.get bs (.str f)).bind _)
      cases hx : Entries.get as (.str f) with
      | none =>
        rw [hx] at hg
        rw [hg.none_iff.1 rfl]
        exact .none
      | some x =>
        rw [hx] at hg
        obtain ⟨y, hy, e⟩ := hg.some_left
        rw [hy]
        exact field_equal fs ⟨Entries.WF_of_get ha hx, Entries.WF_of_get hb hy, e⟩
    | _ =>
      cases b with
      | map bs => simp [equals] at h
      | _ => exact .none

theorem fields_equal (fs : List Str) {x y : Option Value} (h : Option.Rel Eqv x y) : Option.Rel Eqv (x.bind (fieldOf fs)) (y.bind (fieldOf fs)) := by
  cases h with
  | none => exact .none
  | some h => exact field_equal fs h

theorem rel_reordered {x y : Option Value} (h : Option.Rel Eqv x y) : Option.Rel Reordered x y := by
  cases h with
  | none => exact .none
  | some h => exact .some (equals_reordered h.1 h.2.1 h.2.2)

theorem all_equal {vs ws : List Value} (h : List.Forall₂ Reordered vs ws) : (∀ v ∈ vs, WF v) → List.Forall₂ Eqv vs ws := by
  induction h with
  | nil => exact fun _ => .nil
  | cons h _ ih =>
    intro hw
    have w := hw _ List.mem_cons_self
    obtain ⟨h1, h2⟩ := reordered_equals h w
    exact .cons ⟨w, h1, h2⟩ (ih fun v hv => hw v (List.mem_cons_of_mem _ hv))

/-! ### What is said about lookups -/

theorem said_equal (root : Str) {vs ws : List Value} (h : List.Forall₂ Eqv vs ws) :
    Option.Rel Eqv (vs.findSome? (mergeIn root)) (ws.findSome? (mergeIn root)) := by
  have one : ∀ {a b : Value}, Eqv a b → Option.Rel Eqv (mergeIn root a) (mergeIn root b) := fun {a b} h => by
    have e : ∀ c : Value, mergeIn root c = fieldOf [root, "merge".toList] c := fun c => by
      cases c with
      | map es =>
        show (Entries.get es (.str root)).bind _ = (Entries.get es (.str root)).bind _
        congr 1
        funext d
        cases d <;> rfl
      | _ => rfl
    rw [e, e]
    exact field_equal _ h
  induction h with
  | nil => exact .none
  | @cons a b _ _ h _ ih =>
    rw [List.findSome?_cons, List.findSome?_cons]
    have := one h
    cases h1 : mergeIn root a <;> cases h2 : mergeIn root b <;> rw [h1, h2] at this
    · exact ih
    · cases this
    · cases this
    · exact this

end Hiera
