/- Lemmas for C110: a value that was merged already changes nothing when it is merged again. -/
import Verif.Spec.Repeated
import Verif.Lemmas.Below
import Verif.Lemmas.MergeEqual

set_option autoImplicit false

namespace Hiera
open Value Spec

theorem uniqueFrom_covered {seen : List Value} : ∀ {xs : List Value}, (∀ x ∈ xs, ∃ r ∈ seen, equals r x = true) → uniqueFrom seen xs = []
  | [], _ => rfl
  | x :: xs, h => by
    rw [uniqueFrom, if_pos]
    · exact uniqueFrom_covered (fun y hy => h y (by simp [hy]))
    · simp only [List.any_eq_true]
      exact h x (by simp)

theorem unique_covers {xs : List Value} (hw : ∀ v ∈ xs, WF v) {x : Value} (h : x ∈ xs) : ∃ r ∈ unique xs, equals r x = true := by
  obtain ⟨r, hr, e⟩ := uniqueFrom_covers xs hw [] x h
  exact ⟨r, by rw [unique]; simpa using hr, e⟩

/-- Elements that are there already add nothing. -/
theorem unique_again {xs ys : List Value} (hw : ∀ v ∈ xs, WF v) (h : ∀ y ∈ ys, y ∈ xs) : unique (xs ++ ys) = unique xs := by
  rw [unique_append, uniqueFrom_covered (fun y hy => unique_covers hw (h y hy)), List.append_nil]

theorem unique_ne_nil {xs : List Value} (hw : ∀ v ∈ xs, WF v) (h : xs ≠ []) : unique xs ≠ [] := by
  intro hn
  obtain ⟨x, hx⟩ := List.exists_mem_of_ne_nil _ h
  obtain ⟨r, hr, _⟩ := unique_covers hw hx
  rw [hn] at hr
  cases hr

/-! ### `deep` -/

/-- When a hash stays what it is. -/
theorem deep_map_stays {as vs : Entries} (ha : WF (.map as)) (hv : WF (.map vs)) :
    (deep (.map as) (.map vs)).1 = .map as ↔
      ∀ k y, WF k → Entries.get vs k = some y → ∃ x, Entries.get as k = some x ∧ (deep x y).1 = x := by
  constructor
  · intro h k y hk hy
    obtain ⟨rs, h1, h2⟩ := get_deep ha hv
    rw [h] at h1
    cases h1
    have := h2 k hk
    rw [hy] at this
    cases hx : Entries.get as k with
    | none => rw [hx] at this; cases this
    | some x => rw [hx] at this; exact ⟨x, rfl, (Option.some.inj this).symm⟩
  · intro h
    have e : deepMap as vs = as := by
      rw [deepMap_eq ha hv]
      have : vs.filter (fun e => !Entries.containsKey as e.1) = [] := by
        rw [List.filter_eq_nil_iff]
        intro e he
        have we := (Entries.WF_of_mem hv he).1
        obtain ⟨x, hx, _⟩ := h e.1 e.2 we (Entries.get_of_mem hv he we (equals_refl we))
        simp [Entries.containsKey_iff_get, hx]
      rw [this, List.append_nil, deepEntries_eq]
      conv => rhs; rw [← List.map_id as]
      apply List.map_congr_left
      intro e he
      have we := (Entries.WF_of_mem ha he).1
      cases hy : Entries.get vs e.1 with
      | none => rfl
      | some y =>
        obtain ⟨x, hx, hd⟩ := h e.1 y we hy
        rw [Entries.get_of_mem ha he we (equals_refl we)] at hx
        cases hx
        simp only [deepValue_eq, hd]
        rfl
    rw [deep_map, e, equals_refl ha]
    rfl

theorem deep_nil_right (as : List Value) : (deep (.arr as) (.arr [])).1 = .arr as := by simp [deep]

theorem deep_nil_left (vs : List Value) : (deep (.arr []) (.arr vs)).1 = .arr vs := by
  cases vs <;> simp [deep]

theorem deep_apart {a b : Value} (h : ¬SameContainer a b) : (deep a b).1 = a := by
  cases a <;> cases b <;> simp_all [SameContainer, deep]

theorem noDups_get {es : Entries} (h : NoDups (.map es)) {k y : Value} (hy : Entries.get es k = some y) : NoDups y := by
  rw [NoDups] at h
  induction es with
  | nil => rw [Entries.get_nil] at hy; cases hy
  | cons e es ih =>
    obtain ⟨l, v⟩ := e
    rw [NoDupsE] at h
    rw [Entries.get_cons] at hy
    split at hy
    · cases hy; exact h.1
    · exact ih h.2 hy

theorem deep_isMap {as : Entries} (b : Value) : ∃ rs, (deep (.map as) b).1 = .map rs := by
  cases b with
  | map bs => rw [deep_map]; split <;> exact ⟨_, rfl⟩
  | _ => exact ⟨as, by simp [deep]⟩

theorem deep_isArr {as : List Value} (b : Value) : ∃ rs, (deep (.arr as) b).1 = .arr rs := by
  cases b with
  | arr bs =>
    rw [deep]
    split
    · split
      · exact ⟨_, rfl⟩
      · dsimp only; split <;> exact ⟨_, rfl⟩
    · exact ⟨_, rfl⟩
  | _ => exact ⟨as, by simp [deep]⟩

theorem sameContainer_deep {a b v : Value} (h : ¬SameContainer a v) : ¬SameContainer (deep a b).1 v := by
  cases a with
  | map as => obtain ⟨rs, e⟩ := deep_isMap (as := as) b; rw [e]; cases v <;> simp_all [SameContainer]
  | arr as => obtain ⟨rs, e⟩ := deep_isArr (as := as) b; rw [e]; cases v <;> simp_all [SameContainer]
  | _ => simpa [deep] using h

/-- A value that was just merged. -/
theorem deep_again {a v : Value} (ha : WF a) (hv : WF v) (hn : NoDups v) : (deep (deep a v).1 v).1 = (deep a v).1 := by
  have key : ∀ (n : Nat) (a v : Value), sizeOf v < n → WF a → WF v → NoDups v → (deep (deep a v).1 v).1 = (deep a v).1 := by
    intro n
    induction n with
    | zero => intro a v h; omega
    | succ n ih =>
      intro a v hs ha hv hn
      by_cases hc : SameContainer a v
      · match a, v, hc with
        | .map as, .map vs, _ =>
          obtain ⟨rs, h1, h2⟩ := get_deep ha hv
          have wr : WF (.map rs) := by rw [← h1]; exact deep_WF ha hv
          rw [h1, deep_map_stays wr hv]
          intro k y hk hy
          have hg := h2 k hk
          rw [hy] at hg
          have wy := Entries.WF_of_get hv hy
          have sy : sizeOf y < n := by
            obtain ⟨e, he, _, rfl⟩ := Entries.get_mem hy
            have := (sizeOf_map_mem he).2
            omega
          cases hx : Entries.get as k with
          | none =>
            rw [hx] at hg
            refine ⟨y, hg, ?_⟩
            have := C12_idempotent y wy (noDups_get hn hy)
            rw [deepMerge] at this
            rw [this]
          | some x =>
            rw [hx] at hg
            exact ⟨_, hg, ih x y sy (Entries.WF_of_get ha hx) wy (noDups_get hn hy)⟩
        | .arr as, .arr vs, _ =>
          have wa := WF_arr.1 ha
          have wv := WF_arr.1 hv
          by_cases h2 : vs = []
          · subst h2; rw [deep_nil_right, deep_nil_right]
          · by_cases h1 : as = []
            · subst h1
              rw [deep_nil_left]
              have := C12_idempotent (.arr vs) hv hn
              rw [deepMerge] at this
              rw [this]
            · have wu : ∀ v ∈ as ++ vs, WF v := fun v h => (List.mem_append.1 h).elim (wa v) (wv v)
              have wn : WF (.arr (unique (as ++ vs))) := WF_arr.2 (fun v h => wu v (unique_mem h))
              rw [deep_arr ha hv h1 h2, deep_arr wn hv (unique_ne_nil wu (by simp [h1])) h2, unique_unique_append,
                unique_again wu (fun y hy => List.mem_append_right _ hy)]
      · rw [deep_apart hc, deep_apart hc]
  exact key _ a v (Nat.lt_succ_self _) ha hv hn

/-- A value that was merged before something else. -/
theorem deep_still {a b v : Value} (ha : WF a) (hb : WF b) (hv : WF v) (h : (deep a v).1 = a) : (deep (deep a b).1 v).1 = (deep a b).1 := by
  have key : ∀ (n : Nat) (a b v : Value), sizeOf v < n → WF a → WF b → WF v → (deep a v).1 = a → (deep (deep a b).1 v).1 = (deep a b).1 := by
    intro n
    induction n with
    | zero => intro a b v h; omega
    | succ n ih =>
      intro a b v hs ha hb hv h
      by_cases hc : SameContainer a v
      · by_cases hab : SameContainer a b
        · match a, v, b, hc, hab with
          | .map as, .map vs, .map bs, _, _ =>
            obtain ⟨rs, h1, h2⟩ := get_deep ha hb
            have wr : WF (.map rs) := by rw [← h1]; exact deep_WF ha hb
            rw [h1, deep_map_stays wr hv]
            intro k y hk hy
            have wy := Entries.WF_of_get hv hy
            have sy : sizeOf y < n := by
              obtain ⟨e, he, _, rfl⟩ := Entries.get_mem hy
              have := (sizeOf_map_mem he).2
              omega
            obtain ⟨x, hx, hd⟩ := (deep_map_stays ha hv).1 h k y hk hy
            have hg := h2 k hk
            rw [hx] at hg
            cases hz : Entries.get bs k with
            | none => rw [hz] at hg; exact ⟨x, hg, hd⟩
            | some z =>
              rw [hz] at hg
              exact ⟨_, hg, ih x z y sy (Entries.WF_of_get ha hx) (Entries.WF_of_get hb hz) wy hd⟩
          | .arr as, .arr vs, .arr bs, _, _ =>
            have wa := WF_arr.1 ha
            have wb := WF_arr.1 hb
            have wv := WF_arr.1 hv
            by_cases h2 : vs = []
            · subst h2
              obtain ⟨rs, e⟩ := deep_isArr (as := as) (.arr bs)
              rw [e, deep_nil_right]
            · have h1 : as ≠ [] := by
                rintro rfl
                rw [deep_nil_left] at h
                cases h
                exact h2 rfl
              by_cases h3 : bs = []
              · subst h3; rw [deep_nil_right, h]
              · have wu : ∀ v ∈ as ++ bs, WF v := fun v h => (List.mem_append.1 h).elim (wa v) (wb v)
                have wn : WF (.arr (unique (as ++ bs))) := WF_arr.2 (fun v h => wu v (unique_mem h))
                have wav : ∀ v ∈ as ++ vs, WF v := fun v h => (List.mem_append.1 h).elim (wa v) (wv v)
                rw [deep_arr ha hv h1 h2] at h
                rw [deep_arr ha hb h1 h3, deep_arr wn hv (unique_ne_nil wu (by simp [h1])) h2, unique_unique_append, unique_append (as ++ bs) vs,
                  uniqueFrom_covered, List.append_nil]
                intro y hy
                obtain ⟨x, hx, ex⟩ := unique_covers wav (List.mem_append_right as hy)
                rw [Value.arr.inj h] at hx
                obtain ⟨r, hr, er⟩ := unique_covers wu (List.mem_append_left bs hx)
                exact ⟨r, hr, equals_trans (wu r (unique_mem hr)) (wa x hx) (wv y hy) er ex⟩
        · rw [deep_apart hab, h]
      · rw [deep_apart (sameContainer_deep hc)]
  exact key _ a b v (Nat.lt_succ_self _) ha hb hv h

theorem deep_fold_still {opts : Entries} {v : Value} (hv : WF v) : ∀ (ws : List Value) {a : Value}, WF a → (∀ w ∈ ws, WF w) → (deep a v).1 = a →
    (deep (ws.foldl (Strategy.deep opts).merge a) v).1 = ws.foldl (Strategy.deep opts).merge a
  | [], _, _, _, h => h
  | w :: ws, _, ha, hw, h => deep_fold_still hv ws (deep_WF ha (hw w (by simp))) (fun x hx => hw x (by simp [hx])) (deep_still ha (hw w (by simp)) hv h)

theorem deep_fold_absorbs {opts : Entries} {v : Value} (hv : WF v) (hn : NoDups v) : ∀ (ws : List Value) {a : Value}, WF a → (∀ w ∈ ws, WF w) →
    (v = a ∨ v ∈ ws) → (deep (ws.foldl (Strategy.deep opts).merge a) v).1 = ws.foldl (Strategy.deep opts).merge a
  | [], a, _, _, h => by
    rcases h with rfl | h
    · have := C12_idempotent v hv hn
      rw [deepMerge] at this
      simp only [List.foldl_nil, this]
    · cases h
  | w :: ws, a, ha, hw, h => by
    have wd := deep_WF ha (hw w (by simp))
    have ws' : ∀ x ∈ ws, WF x := fun x hx => hw x (by simp [hx])
    rcases h with rfl | h
    · have := C12_idempotent v hv hn
      rw [deepMerge] at this
      exact deep_fold_still hv ws wd ws' (deep_still ha (hw w (by simp)) hv (by rw [this]))
    · rcases List.mem_cons.1 h with rfl | h
      · exact deep_fold_still hv ws wd ws' (deep_again ha hv hn)
      · exact deep_fold_absorbs hv hn ws wd ws' (.inr h)

/-! ### `hash` -/

theorem hash_fold_get (rest : List Value) : ∀ (as : Entries), WF (.map as) → (∀ v ∈ rest, WF v) →
    ∃ rs, rest.foldl Strategy.hash.merge (.map as) = .map rs ∧ WF (.map rs) ∧
      ∀ k, WF k → Entries.get rs k = (hashes (.map as :: rest)).findSome? (fun es => Entries.get es k) := by
  induction rest with
  | nil =>
    intro as ha _
    refine ⟨as, rfl, ha, fun k _ => ?_⟩
    simp only [hashes, List.filterMap_cons, List.filterMap_nil, List.findSome?_cons, List.findSome?_nil]
    cases Entries.get as k <;> rfl
  | cons v rest ih =>
    intro as ha hr
    have hv := hr v (by simp)
    have hr' : ∀ v ∈ rest, WF v := fun x hx => hr x (by simp [hx])
    rw [List.foldl_cons]
    cases v with
    | map bs =>
      obtain ⟨rs, h1, h2, h3⟩ := ih (Entries.merge bs as) (Entries.WF_merge hv ha) hr'
      refine ⟨rs, h1, h2, fun k hk => ?_⟩
      rw [h3 k hk]
      simp only [hashes, List.filterMap_cons, List.findSome?_cons, Entries.get_merge hv ha hk]
      cases Entries.get as k <;> simp
    | _ => simpa [Strategy.merge, hashes] using ih as ha hr'

theorem hash_fold_other {a : Value} (h : ∀ es, a ≠ .map es) (ws : List Value) : ws.foldl Strategy.hash.merge a = a := by
  induction ws with
  | nil => rfl
  | cons w ws ih =>
    have : Strategy.hash.merge a w = a := by cases a <;> first | rfl | exact absurd rfl (h _)
    rw [List.foldl_cons, this, ih]

theorem findSome_again {α β : Type} {f : α → Option β} {xs ys : List α} {x : α} (h : x ∈ xs) :
    (xs ++ x :: ys).findSome? f = (xs ++ ys).findSome? f := by
  rw [List.findSome?_append, List.findSome?_append, List.findSome?_cons]
  cases hx : f x with
  | none => rfl
  | some b =>
    have : xs.findSome? f ≠ none := fun hn => by rw [List.findSome?_eq_none_iff.1 hn x h] at hx; cases hx
    cases hf : xs.findSome? f with
    | none => exact absurd hf this
    | some c => rfl

/-! ### The fields of equal values -/

theorem equals_field : ∀ (fs : List Str) {a b : Value}, WF a → WF b → equals a b = true → SameButOrder (fieldOf fs a) (fieldOf fs b)
  | [], _, _, _, _, h => .inr ⟨_, _, rfl, rfl, h⟩
  | f :: fs, a, b, ha, hb, h => by
    cases a with
    | map as =>
      obtain ⟨bs, rfl⟩ := equals_is_map h
      have hg := get_equal ha hb h (k := .str f) (by simp)
      show SameButOrder ((Entries.get as (.str f)).bind _) ((Entries.get bs (.str f)).bind _)
      cases hx : Entries.get as (.str f) with
      | none =>
        rw [hx] at hg
        rw [hg.none_iff.1 rfl]
        exact .inl ⟨rfl, rfl⟩
      | some x =>
        rw [hx] at hg
        obtain ⟨y, hy, e⟩ := hg.some_left
        rw [hy]
        exact equals_field fs (Entries.WF_of_get ha hx) (Entries.WF_of_get hb hy) e
    | _ =>
      refine .inl ⟨rfl, ?_⟩
      cases b with
      | map bs => simp [equals] at h
      | _ => rfl

/-! ### The merge of all values -/

/-- A value that is there already, above, is merged again: nothing changes, but for the order of the keys of a merge by `hash`. -/
theorem combine_again (st : Strategy) {us ws : List Value} {v : Value} (hu : ∀ u ∈ us, WF u) (hw : ∀ w ∈ ws, WF w) (hv : v ∈ us)
    (hd : ∀ o, st = .deep o → NoDups v)
    (ha : st = .unique → ∀ x, us ++ ws = [x] → ∃ es, x = .arr es ∧ (∀ e ∈ es, ∀ xs, e ≠ .arr xs) ∧ es.Pairwise (fun a b => equals a b = false)) :
    (st ≠ .hash → refCombine st (us ++ v :: ws) = refCombine st (us ++ ws)) ∧
    ∃ x y, refCombine st (us ++ v :: ws) = some x ∧ refCombine st (us ++ ws) = some y ∧ WF x ∧ WF y ∧ equals x y = true := by
  cases us with
  | nil => cases hv
  | cons u us =>
    have wu := hu u (by simp)
    have wus : ∀ w ∈ us, WF w := fun w h => hu w (by simp [h])
    have wv := hu v hv
    have wall : ∀ w ∈ us ++ ws, WF w := fun w h => (List.mem_append.1 h).elim (wus w) (hw w)
    have e1 : refCombine st (u :: us ++ v :: ws) = some (ws.foldl st.merge (st.merge (us.foldl st.merge (st.convertValue u)) v)) := by
      simp [refCombine]
    have e2 : refCombine st (u :: us ++ ws) = some (ws.foldl st.merge (us.foldl st.merge (st.convertValue u))) := by simp [refCombine]
    have wy : WF (ws.foldl st.merge (us.foldl st.merge (st.convertValue u))) := by
      rw [← List.foldl_append]
      exact (fold_extends st (us ++ ws) (convert_WF st wu) wall (flatFor_convert st u)).2
    have fin : refCombine st (u :: us ++ v :: ws) = refCombine st (u :: us ++ ws) →
        (st ≠ .hash → refCombine st (u :: us ++ v :: ws) = refCombine st (u :: us ++ ws)) ∧
        ∃ x y, refCombine st (u :: us ++ v :: ws) = some x ∧ refCombine st (u :: us ++ ws) = some y ∧ WF x ∧ WF y ∧ equals x y = true :=
      fun h => ⟨fun _ => h, _, _, h.trans e2, e2, wy, wy, equals_refl wy⟩
    cases st with
    | first => exact fin (by rw [e1, e2]; rfl)
    | deep o =>
      apply fin
      rw [e1, e2]
      have : (Strategy.deep o).merge (us.foldl (Strategy.deep o).merge u) v = us.foldl (Strategy.deep o).merge u :=
        deep_fold_absorbs wv (hd o rfl) us wu wus (List.mem_cons.1 hv)
      exact congrArg (fun x => some (ws.foldl (Strategy.deep o).merge x)) this
    | unique =>
      apply fin
      have gen : ∀ (xs : List Value), xs ≠ [] → refCombine .unique (u :: xs) = some (.arr (unique (flattenV u ++ flatten xs))) := fun xs hx => by
        show some (xs.foldl Strategy.unique.merge (.arr (convertUnique u))) = _
        rw [convertUnique_eq, unique_fold xs _ (flattenV_no_arr u) hx]
      have wf : ∀ x ∈ flattenV u ++ flatten us, WF x := fun x h =>
        (List.mem_append.1 h).elim (flattenV_WF u wu x) (flatten_WF us wus x)
      have sub : ∀ x ∈ flattenV v, x ∈ flattenV u ++ flatten us := fun x hx => by
        rcases List.mem_cons.1 hv with rfl | h
        · exact List.mem_append_left _ hx
        · refine List.mem_append_right _ ?_
          rw [flatten_eq_flatMap]
          exact List.mem_flatMap.2 ⟨v, h, hx⟩
      have big : refCombine .unique (u :: us ++ v :: ws) = some (.arr (unique (flattenV u ++ flatten (us ++ ws)))) := by
        rw [List.cons_append, gen _ (by simp), flatten_eq_flatMap, flatten_eq_flatMap]
        simp only [List.flatMap_append, List.flatMap_cons]
        rw [← flatten_eq_flatMap, ← List.append_assoc, ← List.append_assoc, ← List.append_assoc,
          ← unique_unique_append ((flattenV u ++ flatten us) ++ flattenV v), unique_again wf sub, unique_unique_append]
      rw [big]
      by_cases hx : us ++ ws = []
      · obtain ⟨es, rfl, f1, f2⟩ := ha rfl u (by rw [List.cons_append, hx])
        rw [List.cons_append, hx]
        show some (Value.arr (unique (flatten es ++ []))) = some (.arr (flatten es))
        rw [List.append_nil, flatten_flat es f1, unique_id f2]
      · exact (gen _ hx).symm
    | hash =>
      by_cases hm : ∃ as, u = .map as
      · obtain ⟨as, rfl⟩ := hm
        have e1' : refCombine .hash (.map as :: us ++ v :: ws) = some ((us ++ v :: ws).foldl Strategy.hash.merge (.map as)) := rfl
        have e2' : refCombine .hash (.map as :: us ++ ws) = some ((us ++ ws).foldl Strategy.hash.merge (.map as)) := rfl
        obtain ⟨rs, h1, h2, h3⟩ := hash_fold_get (us ++ v :: ws) as wu (fun w h => by
          rcases List.mem_append.1 h with h | h
          · exact wus w h
          · rcases List.mem_cons.1 h with rfl | h
            · exact wv
            · exact hw w h)
        obtain ⟨qs, k1, k2, k3⟩ := hash_fold_get (us ++ ws) as wu wall
        have same : ∀ k, WF k → Entries.get rs k = Entries.get qs k := fun k hk => by
          rw [h3 k hk, k3 k hk]
          unfold hashes
          rw [← List.cons_append, ← List.cons_append, List.filterMap_append, List.filterMap_append]
          cases v with
          | map vs =>
            have hm : vs ∈ hashes (.map as :: us) := List.mem_filterMap.2 ⟨.map vs, hv, rfl⟩
            exact findSome_again hm
          | _ => rfl
        refine ⟨fun h => absurd rfl h, .map rs, .map qs, by rw [e1', h1], by rw [e2', k1], h2, k2, maps_equal h2 k2 (fun k hk => by rw [same k hk]) ?_⟩
        intro k x y hk hx hy
        rw [same k hk, hy] at hx
        cases hx
        exact equals_refl (Entries.WF_of_get k2 hy)
      · have ho : ∀ es, u ≠ .map es := fun es h => hm ⟨es, h⟩
        refine fin ?_
        show some ((us ++ v :: ws).foldl Strategy.hash.merge u) = some ((us ++ ws).foldl Strategy.hash.merge u)
        rw [hash_fold_other ho, hash_fold_other ho]

end Hiera
