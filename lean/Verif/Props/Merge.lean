/-
  Properties C07–C14: merging (`merge/deepmerge.go`, `merge/strategy.go`).
-/
import Verif.Lemmas.Merge

set_option autoImplicit false

namespace Hiera
open Spec Value

/-! ### C07 -/

/-- C07: with `first` exactly one of three things happens: the first source with a value supplies the result, the first
source that panics ends the lookup, or no source has a value. The consulted sources are those up to the deciding one. -/
theorem C07_first {ι : Type} (vs : List ι) (g : ι → Res (Option Value)) :
    (∃ pre x post v, vs = pre ++ x :: post ∧ (∀ y ∈ pre, g y = .ok none) ∧ g x = .ok (some v) ∧
      runMerge .first vs g = (.ok (some v), pre ++ [x])) ∨
    (∃ pre x post e, vs = pre ++ x :: post ∧ (∀ y ∈ pre, g y = .ok none) ∧ g x = .panic e ∧
      runMerge .first vs g = (.panic e, pre ++ [x])) ∨
    ((∀ y ∈ vs, g y = .ok none) ∧ runMerge .first vs g = (.ok none, vs)) := by
  have many : ∀ a b rest, vs = a :: b :: rest → runMerge .first vs g =
      match firstLoop (m := Traced ι) (consult g) vs [] with
      | (.ok r, tr) => (.ok r, tr)
      | (.panic e, tr) => (.panic e, tr) := by
    rintro a b rest rfl
    unfold runMerge
    simp only [mergeLookup, bind]
    rcases firstLoop (m := Traced ι) (consult g) (a :: b :: rest) [] with ⟨r, tr⟩
    cases r with
    | panic e => rfl
    | ok r => cases r <;> simp [pure]
  match vs, many with
  | [], _ => exact .inr (.inr ⟨by simp, rfl⟩)
  | [x], _ =>
    cases hx : g x with
    | panic e => exact .inr (.inl ⟨[], x, [], e, rfl, by simp, hx, by simp [runMerge, mergeLookup, consult, hx]⟩)
    | ok r =>
      cases r with
      | some v => exact .inl ⟨[], x, [], v, rfl, by simp, hx, by simp [runMerge, mergeLookup, consult, hx]⟩
      | none => exact .inr (.inr ⟨by simpa using hx, by simp [runMerge, mergeLookup, consult, hx]⟩)
  | a :: b :: rest, many =>
    rw [many a b rest rfl]
    rcases firstLoop_run g (a :: b :: rest) [] with ⟨pre, x, post, v, h0, h1, h2, h3⟩ | ⟨pre, x, post, e, h0, h1, h2, h3⟩ | ⟨h1, h2⟩
    · exact .inl ⟨pre, x, post, v, h0, h1, h2, by rw [h3]; simp⟩
    · exact .inr (.inl ⟨pre, x, post, e, h0, h1, h2, by rw [h3]; simp⟩)
    · exact .inr (.inr ⟨h1, by rw [h2]; simp⟩)

example : runMerge .first [0, 1, 2, 3] (fun i => if i = 2 then .ok (some (.int 7)) else .ok none) =
    (.ok (some (.int 7)), [0, 1, 2]) := by decide

/-! ### C13 -/

/-- The result of the other strategies over sources that do not panic. -/
theorem runMerge_ok {ι : Type} (s : Strategy) (hs : s ≠ .first) (vs : List ι) (g : ι → Res (Option Value))
    (h : ∀ v ∈ vs, ∃ r, g v = .ok r) : runMerge s vs g =
      (.ok (match vs with
        | [_] => (found g vs).head?.map s.single
        | _ => mergeAll s (found g vs)), vs) := by
  match vs, h with
  | [], _ => cases s <;> simp [runMerge, mergeLookup, pure, found, mergeAll]
  | [x], h =>
    obtain ⟨r, hr⟩ := h x (by simp)
    cases s <;> first | exact absurd rfl hs | (cases r <;> simp [runMerge, mergeLookup, bind, pure, consult, hr, found])
  | a :: b :: rest, h =>
    have := mergeLoop_ok s g (a :: b :: rest) none [] h
    simp only [List.nil_append] at this
    cases s <;> first
      | exact absurd rfl hs
      | (simp only [runMerge, mergeLookup, bind, this]
         cases mergeAll _ (found g (a :: b :: rest)) <;> simp [pure])

theorem runMerge_panic {ι : Type} (s : Strategy) (hs : s ≠ .first) (pre post : List ι) (x : ι) (e : Err)
    (g : ι → Res (Option Value)) (h : ∀ v ∈ pre, ∃ r, g v = .ok r) (hx : g x = .panic e) :
    runMerge s (pre ++ x :: post) g = (.panic e, pre ++ [x]) := by
  match hv : pre ++ x :: post with
  | [] => simp at hv
  | [y] =>
    have : pre = [] ∧ x = y ∧ post = [] := by
      cases pre with
      | nil => simpa using hv
      | cons => simp at hv
    obtain ⟨rfl, rfl, rfl⟩ := this
    cases s <;> first | exact absurd rfl hs | simp [runMerge, mergeLookup, bind, consult, hx]
  | a :: b :: rest =>
    have := mergeLoop_panic s g x e post hx pre none [] h
    rw [hv] at this
    simp only [List.nil_append] at this
    cases s <;> first
      | exact absurd rfl hs
      | simp only [runMerge, mergeLookup, bind, this]

theorem found_nil {ι : Type} (g : ι → Res (Option Value)) (vs : List ι) (h : ∀ v ∈ vs, ∃ r, g v = .ok r) :
    found g vs = [] ↔ ∀ v ∈ vs, g v = .ok none := by
  simp only [found, List.filterMap_eq_nil_iff]
  constructor
  · intro h' v hv
    obtain ⟨r, hr⟩ := h v hv
    have := h' v hv
    rw [hr] at this
    cases r <;> simp_all
  · intro h' v hv; rw [h' v hv]

/-- C13: for every strategy, over sources that do not panic, the merge finds nothing iff no source has a value. -/
theorem C13_found_iff {ι : Type} (s : Strategy) (vs : List ι) (g : ι → Res (Option Value))
    (h : ∀ v ∈ vs, ∃ r, g v = .ok r) :
    ((runMerge s vs g).1 = .ok none ↔ ∀ v ∈ vs, g v = .ok none) ∧ ∃ r, (runMerge s vs g).1 = .ok r := by
  by_cases hs : s = .first
  · subst hs
    rcases C07_first vs g with ⟨pre, x, post, v, rfl, h1, h2, h3⟩ | ⟨pre, x, post, e, rfl, h1, h2, h3⟩ | ⟨h1, h2⟩
    · rw [h3]
      refine ⟨?_, _, rfl⟩
      simp only [Res.ok.injEq, reduceCtorEq, false_iff, not_forall]
      exact ⟨x, by simp, by simp [h2]⟩
    · obtain ⟨r, hr⟩ := h x (by simp)
      rw [hr] at h2; cases h2
    · rw [h2]; exact ⟨by simpa using h1, _, rfl⟩
  · rw [runMerge_ok s hs vs g h]
    refine ⟨?_, _, rfl⟩
    rw [← found_nil g vs h]
    match vs with
    | [] => simp [found, mergeAll]
    | [x] => cases hf : found g [x] <;> simp
    | a :: b :: rest => cases hf : found g (a :: b :: rest) <;> simp [mergeAll]

/-- C13: `unique`, `hash` and `deep` consult every source exactly once, in order, unless one panics: then the merge stops
there with that panic. -/
theorem C13_consulted {ι : Type} (s : Strategy) (hs : s ≠ .first) (vs : List ι) (g : ι → Res (Option Value)) :
    ((∀ v ∈ vs, ∃ r, g v = .ok r) ∧ (runMerge s vs g).2 = vs) ∨
    (∃ pre x post e, vs = pre ++ x :: post ∧ (∀ v ∈ pre, ∃ r, g v = .ok r) ∧ g x = .panic e ∧
      runMerge s vs g = (.panic e, pre ++ [x])) := by
  by_cases h : ∀ v ∈ vs, ∃ r, g v = .ok r
  · exact .inl ⟨h, by rw [runMerge_ok s hs vs g h]⟩
  · right
    have : ∃ pre x post e, vs = pre ++ x :: post ∧ (∀ v ∈ pre, ∃ r, g v = .ok r) ∧ g x = .panic e := by
      induction vs with
      | nil => exact absurd (by simp) h
      | cons v vs ih =>
        cases hv : g v with
        | panic e => exact ⟨[], v, vs, e, rfl, by simp, hv⟩
        | ok r =>
          have : ¬∀ v ∈ vs, ∃ r, g v = .ok r := by
            intro h'
            apply h
            intro w hw
            rcases List.mem_cons.1 hw with rfl | hw
            · exact ⟨r, hv⟩
            · exact h' w hw
          obtain ⟨pre, x, post, e, rfl, h1, h2⟩ := ih this
          refine ⟨v :: pre, x, post, e, rfl, ?_, h2⟩
          intro w hw
          rcases List.mem_cons.1 hw with rfl | hw
          · exact ⟨r, hv⟩
          · exact h1 w hw
    obtain ⟨pre, x, post, e, rfl, h1, h2⟩ := this
    exact ⟨pre, x, post, e, rfl, h1, h2, runMerge_panic s hs pre post x e g h1 h2⟩

example : runMerge (.deep []) [0, 1, 2] (fun i => if i = 1 then .ok (some (.int 7)) else .ok none) =
    (.ok (some (.int 7)), [0, 1, 2]) := by decide

/-! ### C08 -/

theorem unique_fold (vs : List Value) : ∀ (xs : List Value), (∀ x ∈ xs, ∀ es, x ≠ .arr es) → vs ≠ [] →
    vs.foldl Strategy.unique.merge (.arr xs) = .arr (unique (xs ++ flatten vs)) := by
  induction vs with
  | nil => intro xs _ h; exact absurd rfl h
  | cons v vs ih =>
    intro xs hx _
    have step : Strategy.unique.merge (.arr xs) v = .arr (unique (xs ++ flattenV v)) := by
      simp only [Strategy.merge, convertUnique_eq, flattenV]
      rw [flatten_flat xs hx]
    rw [List.foldl_cons, step]
    cases vs with
    | nil => simp [flatten]
    | cons w ws =>
      rw [ih _ _ (by simp)]
      · rw [unique_unique_append]; simp [flatten]
      · intro x hx'
        rcases List.mem_append.1 (unique_mem hx') with h | h
        · exact hx x h
        · exact flattenV_no_arr v x h

/-- C08 for at least two found values: the result is the duplicate-free list of the leaves of all found values. What is
missing is the case of a single found value, for which the statement is false (`C08_false`); `C08_one_found_partial`
and `C08_one_source_partial` say what happens then. -/
theorem C08_unique_partial {ι : Type} (vs : List ι) (g : ι → Res (Option Value)) (h : ∀ v ∈ vs, ∃ r, g v = .ok r)
    (hw : ∀ v ∈ found g vs, WF v) (h2 : 2 ≤ (found g vs).length) :
    ∃ ls rs, LeavesL (found g vs) ls ∧ IsNub ls rs ∧ (runMerge .unique vs g).1 = .ok (some (.arr rs)) := by
  refine ⟨flatten (found g vs), unique (flatten (found g vs)), leavesL_flatten _, isNub_unique _ (flatten_WF _ hw), ?_⟩
  rw [runMerge_ok _ (by simp) vs g h]
  match vs, h2 with
  | [], h2 => simp [found] at h2
  | [x], h2 =>
    have : (found g [x]).length ≤ 1 := by
      simp only [found]
      exact (List.length_filterMap_le _ _)
    omega
  | a :: b :: rest, h2 =>
    simp only
    match found g (a :: b :: rest), h2 with
    | v :: w :: ws, _ =>
      simp only [mergeAll]
      have : Strategy.unique.convertValue v = .arr (flattenV v) := by simp [Strategy.convertValue, convertUnique_eq]
      rw [this, unique_fold _ _ (flattenV_no_arr v) (by simp), ← flatten]

/-- C08 when several sources are consulted but only one has a value: its leaves, with their duplicates. -/
theorem C08_one_found_partial {ι : Type} (vs : List ι) (g : ι → Res (Option Value)) (h : ∀ v ∈ vs, ∃ r, g v = .ok r)
    (v : Value) (hv : found g vs = [v]) (h2 : 2 ≤ vs.length) :
    ∃ ls, Leaves v ls ∧ (runMerge .unique vs g).1 = .ok (some (.arr ls)) := by
  refine ⟨flattenV v, leaves_flattenV v, ?_⟩
  rw [runMerge_ok _ (by simp) vs g h]
  match vs, h2 with
  | a :: b :: rest, h2 => simp [hv, mergeAll, Strategy.convertValue, convertUnique_eq]

/-- C08 when there is one source only: an array is made duplicate-free, anything else is returned as it is. -/
theorem C08_one_source_partial {ι : Type} (x : ι) (g : ι → Res (Option Value)) (v : Value) (hv : g x = .ok (some v))
    (hw : WF v) :
    ((∀ es, v ≠ .arr es) ∧ (runMerge .unique [x] g).1 = .ok (some v)) ∨
    (∃ es ls rs, v = .arr es ∧ LeavesL es ls ∧ IsNub ls rs ∧ (runMerge .unique [x] g).1 = .ok (some (.arr rs))) := by
  have hf : found g [x] = [v] := by simp [found, hv]
  rw [runMerge_ok _ (by simp) [x] g (by simp [hv])]
  simp only [hf, List.head?_cons, Option.map_some]
  cases v with
  | arr es =>
    exact .inr ⟨es, _, _, rfl, leavesL_flatten es, isNub_unique _ (flatten_WF _ (WF_arr.1 hw)), rfl⟩
  | _ => exact .inl ⟨by simp, rfl⟩

/-- C08 is false: with two sources of which one has a value, duplicates stay and a scalar is wrapped; with one source
duplicates go and a scalar is not wrapped. -/
theorem C08_false :
    (runMerge .unique [0, 1] (fun i => if i = 0 then .ok (some (.arr [.int 1, .int 1])) else .ok none)).1 =
      .ok (some (.arr [.int 1, .int 1])) ∧
    (runMerge .unique [0] (fun _ => .ok (some (.arr [.int 1, .int 1])))).1 = .ok (some (.arr [.int 1])) ∧
    (runMerge .unique [0, 1] (fun i => if i = 0 then .ok (some (.int 1)) else .ok none)).1 =
      .ok (some (.arr [.int 1])) ∧
    (runMerge .unique [0] (fun _ => .ok (some (.int 1)))).1 = .ok (some (.int 1)) := by decide

example : (runMerge .unique [0, 1] (fun i => if i = 0 then .ok (some (.arr [.int 1, .arr [.int 2, .int 1]]))
    else .ok (some (.int 3)))).1 = .ok (some (.arr [.int 1, .int 2, .int 3])) := by decide

/-! ### C09 -/

/-- The hashes among some values. -/
def Spec.hashes (vs : List Value) : List Entries :=
  vs.filterMap (fun v => match v with | .map es => some es | _ => none)

/-- C09: hash merge, highest-priority value a hash. -/
theorem C09_hash {ι : Type} (vs : List ι) (g : ι → Res (Option Value)) (h : ∀ v ∈ vs, ∃ r, g v = .ok r)
    (hw : ∀ v ∈ found g vs, WF v) (as : Entries) (rest : List Value) (hf : found g vs = .map as :: rest) :
    ∃ rs, (runMerge .hash vs g).1 = .ok (some (.map rs)) ∧ WF (.map rs) ∧
      ∀ k, WF k → Entries.get rs k = (hashes (found g vs)).findSome? (fun es => Entries.get es k) := by
  have fold : ∀ (rest : List Value) (as : Entries), WF (.map as) → (∀ v ∈ rest, WF v) →
      ∃ rs, rest.foldl Strategy.hash.merge (.map as) = .map rs ∧ WF (.map rs) ∧
        ∀ k, WF k → Entries.get rs k = (hashes (.map as :: rest)).findSome? (fun es => Entries.get es k) := by
    intro rest
    induction rest with
    | nil =>
      intro as ha _
      refine ⟨as, rfl, ha, ?_⟩
      intro k _
      simp only [hashes, List.filterMap_cons, List.filterMap_nil, List.findSome?_cons, List.findSome?_nil]
      cases Entries.get as k <;> rfl
    | cons v rest ih =>
      intro as ha hr
      have hv := hr v (by simp)
      have hr' : ∀ v ∈ rest, WF v := fun x hx => hr x (by simp [hx])
      rw [List.foldl_cons]
      cases v with
      | map bs =>
        simp only [Strategy.merge]
        obtain ⟨rs, h1, h2, h3⟩ := ih (Entries.merge bs as) (Entries.WF_merge hv ha) hr'
        refine ⟨rs, h1, h2, ?_⟩
        intro k hk
        rw [h3 k hk]
        simp only [hashes, List.filterMap_cons, List.findSome?_cons, Entries.get_merge hv ha hk]
        cases Entries.get as k <;> simp
      | null => simpa [Strategy.merge, hashes] using ih as ha hr'
      | bool => simpa [Strategy.merge, hashes] using ih as ha hr'
      | int => simpa [Strategy.merge, hashes] using ih as ha hr'
      | str => simpa [Strategy.merge, hashes] using ih as ha hr'
      | arr => simpa [Strategy.merge, hashes] using ih as ha hr'
      | sensitive => simpa [Strategy.merge, hashes] using ih as ha hr'
      | «opaque» => simpa [Strategy.merge, hashes] using ih as ha hr'
  rw [hf] at hw
  obtain ⟨rs, h1, h2, h3⟩ := fold rest as (hw _ (by simp)) (fun v hv => hw v (by simp [hv]))
  rw [runMerge_ok _ (by simp) vs g h]
  refine ⟨rs, ?_, h2, by rw [hf]; exact h3⟩
  have len : rest.length + 1 ≤ vs.length := by
    have := congrArg List.length hf
    simp only [List.length_cons] at this
    rw [← this]
    exact List.length_filterMap_le _ _
  match vs, len with
  | [x], len =>
    have : rest = [] := by simp at len; simpa using len
    subst this
    simp only [List.foldl_nil, map.injEq] at h1
    simp [hf, Strategy.single, h1]
  | a :: b :: tl, _ => simp [hf, mergeAll, Strategy.convertValue, h1]

/-- C09: hash merge, highest-priority value not a hash. -/
theorem C09_not_hash {ι : Type} (vs : List ι) (g : ι → Res (Option Value)) (h : ∀ v ∈ vs, ∃ r, g v = .ok r)
    (v : Value) (hv : ∀ es, v ≠ .map es) (rest : List Value) (hf : found g vs = v :: rest) :
    (runMerge .hash vs g).1 = .ok (some v) := by
  have fold : ∀ rest : List Value, rest.foldl Strategy.hash.merge v = v := by
    intro rest
    induction rest with
    | nil => rfl
    | cons w rest ih =>
      have : Strategy.hash.merge v w = v := by cases v <;> simp_all [Strategy.merge]
      rw [List.foldl_cons, this, ih]
  rw [runMerge_ok _ (by simp) vs g h]
  match vs with
  | [] => simp [found] at hf
  | [x] => simp [hf, Strategy.single]
  | a :: b :: tl => simp [hf, mergeAll, Strategy.convertValue, fold]

example : (runMerge .hash [0, 1] (fun i => if i = 0 then .ok (some (.map [(.str ['a'], .int 1)]))
    else .ok (some (.map [(.str ['a'], .int 2), (.str ['b'], .int 3)])))).1 =
    .ok (some (.map [(.str ['a'], .int 1), (.str ['b'], .int 3)])) := by decide

/-! ### C10 -/

/-- C10: the value of `Deep` is the deep merge. -/
theorem C10_deep (a b : Value) (ha : WF a) (hb : WF b) : DeepMerged a b (deepMerge a b).1 := by
  have key : ∀ (n : Nat) (a b : Value), sizeOf a < n → WF a → WF b → DeepMerged a b (deep a b).1 := by
    intro n
    induction n with
    | zero => intro a b h; omega
    | succ n ih =>
      intro a b hn ha hb
      have other : ¬SameContainer a b → DeepMerged a b (deep a b).1 := by
        intro h
        have : (deep a b).1 = a := by
          cases a <;> cases b <;> simp_all [SameContainer, deep]
        rw [this]
        exact .other h
      match a, b with
      | .map as, .map bs =>
        obtain ⟨rs, h1, h2⟩ := get_deep ha hb
        rw [h1]
        refine .maps ?_ ?_ ?_ ?_
        · intro k hk
          rw [h2 k hk]
          cases Entries.get as k <;> cases Entries.get bs k <;> simp
        · intro k x hk hA hB; rw [h2 k hk, hA, hB]
        · intro k x hk hA hB; rw [h2 k hk, hA, hB]
        · intro k x y z hk hA hB hR
          rw [h2 k hk, hA, hB] at hR
          simp only [Option.some.injEq] at hR
          subst hR
          refine ih x y ?_ (Entries.WF_of_get ha hA) (Entries.WF_of_get hb hB)
          obtain ⟨e, he, _, rfl⟩ := Entries.get_mem hA
          have := (sizeOf_map_mem he).2
          omega
      | .arr as, .arr bs =>
        by_cases h1 : as = []
        · subst h1
          by_cases h2 : bs = []
          · subst h2; simp [deep]; exact .emptyLeft
          · have : (deep (.arr []) (.arr bs)).1 = .arr bs := by
              rw [deep, if_pos (List.length_pos_iff.2 h2)]; simp
            rw [this]; exact .emptyLeft
        · by_cases h2 : bs = []
          · subst h2; simp [deep]; exact .emptyRight
          · rw [deep_arr ha hb h1 h2]
            refine .arrays h1 h2 (isNub_unique _ ?_)
            intro v hv
            rcases List.mem_append.1 hv with h | h
            · exact WF_arr.1 ha v h
            · exact WF_arr.1 hb v h
      | .map _, .null => exact other (by simp [SameContainer])
      | .map _, .bool _ => exact other (by simp [SameContainer])
      | .map _, .int _ => exact other (by simp [SameContainer])
      | .map _, .str _ => exact other (by simp [SameContainer])
      | .map _, .arr _ => exact other (by simp [SameContainer])
      | .map _, .sensitive _ => exact other (by simp [SameContainer])
      | .map _, .opaque _ => exact other (by simp [SameContainer])
      | .arr _, .null => exact other (by simp [SameContainer])
      | .arr _, .bool _ => exact other (by simp [SameContainer])
      | .arr _, .int _ => exact other (by simp [SameContainer])
      | .arr _, .str _ => exact other (by simp [SameContainer])
      | .arr _, .map _ => exact other (by simp [SameContainer])
      | .arr _, .sensitive _ => exact other (by simp [SameContainer])
      | .arr _, .opaque _ => exact other (by simp [SameContainer])
      | .null, _ => exact other (by simp [SameContainer])
      | .bool _, _ => exact other (by simp [SameContainer])
      | .int _, _ => exact other (by simp [SameContainer])
      | .str _, _ => exact other (by simp [SameContainer])
      | .sensitive _, _ => exact other (by simp [SameContainer])
      | .opaque _, _ => exact other (by simp [SameContainer])
  exact key _ a b (Nat.lt_succ_self _) ha hb

/-- C10: the specification determines the merged value up to the order of map entries. -/
theorem C10_deep_determined (a b r r' : Value) (ha : WF a) (hb : WF b) (hr : WF r) (hr' : WF r')
    (h : DeepMerged a b r) (h' : DeepMerged a b r') : equals r r' = true := by
  induction h generalizing r' with
  | maps k1 k2 k3 k4 ih =>
    cases h' with
    | maps l1 l2 l3 l4 =>
      rename_i as bs rs rs'
      -- the same keys: each map embeds into the other
      have sub : ∀ (ps qs : Entries), WF (.map ps) → WF (.map qs) →
          (∀ k, WF k → Entries.get qs k = none → Entries.get ps k = none) → ps.length ≤ qs.length := by
        intro ps qs hp hq h
        -- map each entry of `ps` to the entry of `qs` with that key
        have wq := (WF_map.1 hq).1
        have inj : ∀ (ps : Entries) (qs : Entries), (∀ e ∈ ps, WF e.1) → (∀ e ∈ qs, WF e.1) →
            ps.Pairwise (fun e f => equals e.1 f.1 = false) →
            (∀ e ∈ ps, ∃ f ∈ qs, equals e.1 f.1 = true) → ps.length ≤ qs.length := by
          intro ps
          induction ps with
          | nil => intro qs _ _ _ _; simp
          | cons e ps ih =>
            intro qs w1 w2 hp h
            obtain ⟨f, hf, hef⟩ := h e (by simp)
            obtain ⟨q1, q2, rfl⟩ := List.append_of_mem hf
            obtain ⟨p1, p2⟩ := List.pairwise_cons.1 hp
            have := ih (q1 ++ q2) (fun e he => w1 e (by simp [he]))
              (fun e he => w2 e (by
                rcases List.mem_append.1 he with h | h <;> simp [h])) p2 (by
                intro e' he'
                obtain ⟨f', hf', hef'⟩ := h e' (by simp [he'])
                refine ⟨f', ?_, hef'⟩
                rcases List.mem_append.1 hf' with h | h
                · simp [h]
                · rcases List.mem_cons.1 h with rfl | h
                  · exfalso
                    have we := w1 e (by simp)
                    have we' := w1 e' (by simp [he'])
                    have wf := w2 f' (by simp)
                    have := equals_trans we wf we' hef (equals_symm we' wf hef')
                    rw [p1 e' he'] at this; simp at this
                  · simp [h])
            simp only [List.length_append, List.length_cons] at this ⊢
            omega
        refine inj ps qs (fun e he => ((WF_map.1 hp).1 e he).1) (fun e he => (wq e he).1) (WF_map.1 hp).2 ?_
        intro e he
        have we := (WF_map.1 hp).1 e he
        cases hg : Entries.get qs e.1 with
        | none =>
          have h0 := h e.1 we.1 hg
          rw [Entries.get_of_mem hp he we.1 (equals_refl we.1)] at h0
          cases h0
        | some v =>
          obtain ⟨f, hf, he', _⟩ := Entries.get_mem hg
          exact ⟨f, hf, he'⟩
      rw [Entries.equals_map_iff hr hr']
      constructor
      · apply Nat.le_antisymm
        · exact sub _ _ hr hr' (fun k hk h => (k1 k hk).2 ((l1 k hk).1 h))
        · exact sub _ _ hr' hr (fun k hk h => (l1 k hk).2 ((k1 k hk).1 h))
      · intro k v hk hv
        have wv := Entries.WF_of_get hr hv
        cases hA : Entries.get as k with
        | none =>
          cases hB : Entries.get bs k with
          | none => rw [(k1 k hk).2 ⟨hA, hB⟩] at hv; cases hv
          | some y =>
            rw [k3 k y hk hA hB, Option.some.injEq] at hv; subst hv
            exact ⟨y, l3 k y hk hA hB, equals_refl wv⟩
        | some x =>
          cases hB : Entries.get bs k with
          | none =>
            rw [k2 k x hk hA hB, Option.some.injEq] at hv; subst hv
            exact ⟨x, l2 k x hk hA hB, equals_refl wv⟩
          | some y =>
            cases hR : Entries.get rs' k with
            | none => have := ((l1 k hk).1 hR).1; rw [hA] at this; cases this
            | some z =>
              exact ⟨z, rfl, ih k x y v hk hA hB hv z (Entries.WF_of_get ha hA) (Entries.WF_of_get hb hB) wv
                (Entries.WF_of_get hr' hR) (l4 k x y z hk hA hB hR)⟩
    | other h => exact absurd trivial h
  | @arrays as bs rs h1 h2 h3 =>
    have hw : ∀ v ∈ as ++ bs, WF v := by
      intro v hv
      rcases List.mem_append.1 hv with h | h
      · exact WF_arr.1 ha v h
      · exact WF_arr.1 hb v h
    cases h' with
    | arrays _ _ h3' => rw [isNub_eq hw h3, isNub_eq hw h3']; rw [← isNub_eq hw h3]; exact equals_refl hr
    | emptyLeft => exact absurd rfl h1
    | emptyRight => exact absurd rfl h2
    | other h => exact absurd trivial h
  | emptyLeft =>
    cases h' with
    | arrays h1 => exact absurd rfl h1
    | emptyLeft => exact equals_refl hr
    | emptyRight => exact equals_refl hr
    | other h => exact absurd trivial h
  | emptyRight =>
    cases h' with
    | arrays _ h1 => exact absurd rfl h1
    | emptyLeft => exact equals_refl hr
    | emptyRight => exact equals_refl hr
    | other h => exact absurd trivial h
  | other h =>
    cases h' with
    | maps => exact absurd trivial h
    | arrays => exact absurd trivial h
    | emptyLeft => exact absurd trivial h
    | emptyRight => exact absurd trivial h
    | other => exact equals_refl hr

/-- C10: the keys of the merged map are those of `a` in order, followed by the new ones of `b` in order. -/
theorem C10_order (as bs : Entries) (ha : WF (.map as)) (hb : WF (.map bs)) :
    ∃ rs, (deepMerge (.map as) (.map bs)).1 = .map rs ∧
      rs.map (·.1) = as.map (·.1) ++ (bs.map (·.1)).filter (fun k => (Entries.get as k).isNone) := by
  have hfil : (bs.filter (fun e => !Entries.containsKey as e.1)).map (·.1) =
      (bs.map (·.1)).filter (fun k => (Entries.get as k).isNone) := by
    rw [List.filter_map]
    congr 1
    apply List.filter_congr
    intro e _
    simp [Entries.containsKey_iff_get]
  unfold deepMerge
  rw [deep_map]
  split
  · rename_i he
    refine ⟨as, rfl, ?_⟩
    have hlen := ((Entries.equals_map_iff ha (WF_deepMap ha hb)).1 he).1
    rw [deepMap_eq ha hb] at hlen
    have hl : (deepEntries as bs).length = as.length := by simpa using congrArg List.length (deepEntries_keys as bs)
    simp only [List.length_append, hl] at hlen
    have hnil : bs.filter (fun e => !Entries.containsKey as e.1) = [] := List.length_eq_zero_iff.1 (by omega)
    rw [← hfil, hnil]; simp
  · exact ⟨_, rfl, by rw [deepMap_eq ha hb, List.map_append, deepEntries_keys, hfil]⟩

/-- C10 for the strategy: the found values are deep-merged one after the other, higher priority first. -/
theorem C10_strategy {ι : Type} (opts : Entries) (vs : List ι) (g : ι → Res (Option Value))
    (h : ∀ v ∈ vs, ∃ r, g v = .ok r) (v : Value) (rest : List Value) (hf : found g vs = v :: rest)
    (hw : ∀ v ∈ found g vs, WF v) :
    ∃ ws r, ws.length = rest.length ∧ (runMerge (.deep opts) vs g).1 = .ok (some r) ∧
      (v :: ws).getLast? = some r ∧ ∀ (i : Nat) a b c, (v :: ws)[i]? = some a → rest[i]? = some b → ws[i]? = some c →
        DeepMerged a b c := by
  have fold : ∀ (rest : List Value) (v : Value), WF v → (∀ x ∈ rest, WF x) → ∃ ws, ws.length = rest.length ∧
      (v :: ws).getLast? = some (rest.foldl (Strategy.deep opts).merge v) ∧
      ∀ (i : Nat) a b c, (v :: ws)[i]? = some a → rest[i]? = some b → ws[i]? = some c → DeepMerged a b c := by
    intro rest
    induction rest with
    | nil => intro v _ _; exact ⟨[], rfl, rfl, by simp⟩
    | cons x rest ih =>
      intro v hv hx
      have wx := hx x (by simp)
      obtain ⟨ws, h1, h2, h3⟩ := ih ((deepMerge v x).1) (deep_WF hv wx) (fun y hy => hx y (by simp [hy]))
      refine ⟨(deepMerge v x).1 :: ws, by simp [h1], ?_, ?_⟩
      · rw [List.foldl_cons, List.getLast?_cons_cons]
        exact h2
      · intro i a b c hA hB hC
        cases i with
        | zero =>
          simp at hA hB hC
          subst hA hB hC
          exact C10_deep v x hv wx
        | succ i => exact h3 i a b c (by simpa using hA) (by simpa using hB) (by simpa using hC)
  rw [hf] at hw
  obtain ⟨ws, h1, h2, h3⟩ := fold rest v (hw v (by simp)) (fun x hx => hw x (by simp [hx]))
  refine ⟨ws, _, h1, ?_, h2, h3⟩
  rw [runMerge_ok _ (by simp) vs g h]
  have len : rest.length + 1 ≤ vs.length := by
    have := congrArg List.length hf
    simp only [List.length_cons] at this
    rw [← this]
    exact List.length_filterMap_le _ _
  match vs, len with
  | [x], len =>
    have : rest = [] := by simp at len; simpa using len
    subst this
    simp [hf, Strategy.single]
  | a :: b :: tl, _ => simp [hf, mergeAll, Strategy.convertValue]

example : deepMerge (.map [(.str ['a'], .map [(.str ['x'], .int 1)]), (.str ['c'], .arr [.int 1])])
    (.map [(.str ['a'], .map [(.str ['x'], .int 2), (.str ['y'], .int 3)]), (.str ['c'], .arr [.int 2, .int 1])]) =
    (.map [(.str ['a'], .map [(.str ['x'], .int 1), (.str ['y'], .int 3)]), (.str ['c'], .arr [.int 1, .int 2])], true) := by
  decide

/-! ### C11 -/

/-- C11: the flag tells whether the result differs from `a`. -/
theorem C11_flag (a b : Value) (ha : WF a) (hb : WF b) :
    (deepMerge a b).2 = !equals a (deepMerge a b).1 := by
  unfold deepMerge
  cases h : (deep a b).2 with
  | true => simp [deep_true ha hb h]
  | false => rw [deep_false h, equals_refl ha]; rfl

/-- C11: when the flag is false `a` itself is returned. -/
theorem C11_unchanged (a b : Value) (h : (deepMerge a b).2 = false) : (deepMerge a b).1 = a := deep_false h

example : (deepMerge (.map [(.str ['a'], .int 1)]) (.map [(.str ['a'], .int 2)])).2 = false := by decide
example : (deepMerge (.map [(.str ['a'], .int 1)]) (.map [(.str ['b'], .int 2)])).2 = true := by decide

/-! ### C12 -/

/-- The value at a path of `a` in the merged value. -/
theorem valueAt_deep : ∀ (p : List Value) (a b x : Value), WF a → WF b → (∀ k ∈ p, WF k) → valueAt p a = some x →
    ∃ y, valueAt p (deep a b).1 = some y ∧ (y = x ∨ ∃ z, WF z ∧ y = (deep x z).1) := by
  intro p
  induction p with
  | nil => intro a b x _ hb _ h; simp [valueAt] at h; subst h; exact ⟨_, rfl, .inr ⟨b, hb, rfl⟩⟩
  | cons k p ih =>
    intro a b x ha hb hp h
    have hk := hp k (by simp)
    have hp' : ∀ k ∈ p, WF k := fun l hl => hp l (by simp [hl])
    match a, h with
    | .map as, h =>
      rw [valueAt, Option.bind_eq_some_iff] at h
      obtain ⟨v, hA, hv⟩ := h
      match b with
      | .map bs =>
        obtain ⟨rs, h1, h2⟩ := get_deep ha hb
        rw [h1]
        simp only [valueAt, h2 k hk, hA]
        cases hB : Entries.get bs k with
        | none => exact ⟨x, by simpa using hv, .inl rfl⟩
        | some w =>
          simp only [Option.bind_some]
          exact ih v w x (Entries.WF_of_get ha hA) (Entries.WF_of_get hb hB) hp' hv
      | .null => exact ⟨x, by simp [deep, valueAt, hA, hv], .inl rfl⟩
      | .bool _ => exact ⟨x, by simp [deep, valueAt, hA, hv], .inl rfl⟩
      | .int _ => exact ⟨x, by simp [deep, valueAt, hA, hv], .inl rfl⟩
      | .str _ => exact ⟨x, by simp [deep, valueAt, hA, hv], .inl rfl⟩
      | .arr _ => exact ⟨x, by simp [deep, valueAt, hA, hv], .inl rfl⟩
      | .sensitive _ => exact ⟨x, by simp [deep, valueAt, hA, hv], .inl rfl⟩
      | .opaque _ => exact ⟨x, by simp [deep, valueAt, hA, hv], .inl rfl⟩

/-- C12: scalars of `a` stay where they are. -/
theorem C12_scalars (p : List Value) (a b x : Value) (ha : WF a) (hb : WF b) (hp : ∀ k ∈ p, WF k)
    (h : valueAt p a = some x) (hx : (∀ es, x ≠ .map es) ∧ ∀ es, x ≠ .arr es) :
    valueAt p (deepMerge a b).1 = some x := by
  obtain ⟨y, hy, hc⟩ := valueAt_deep p a b x ha hb hp h
  rw [deepMerge, hy]
  rcases hc with rfl | ⟨z, _, rfl⟩
  · rfl
  · congr 1
    cases x <;> simp_all [deep]

/-- C12: elements of arrays of `a` are still there. -/
theorem C12_elements (p : List Value) (a b : Value) (es : List Value) (ha : WF a) (hb : WF b) (hp : ∀ k ∈ p, WF k)
    (h : valueAt p a = some (.arr es)) (he : WF (.arr es)) :
    ∃ fs, valueAt p (deepMerge a b).1 = some (.arr fs) ∧ ∀ e ∈ es, ∃ f ∈ fs, equals f e = true := by
  obtain ⟨y, hy, hc⟩ := valueAt_deep p a b _ ha hb hp h
  rw [deepMerge, hy]
  rcases hc with rfl | ⟨z, hz, rfl⟩
  · exact ⟨es, rfl, fun e h => ⟨e, h, equals_refl (WF_arr.1 he e h)⟩⟩
  · match z with
    | .arr fs =>
      by_cases h1 : es = []
      · subst h1
        cases hd : (deep (.arr []) (.arr fs)).1 with
        | arr gs => exact ⟨gs, rfl, by simp⟩
        | _ => exfalso; rw [deep] at hd; split at hd <;> simp at hd
      · by_cases h2 : fs = []
        · subst h2
          exact ⟨es, by simp [deep], fun e h => ⟨e, h, equals_refl (WF_arr.1 he e h)⟩⟩
        · refine ⟨_, by rw [deep_arr he hz h1 h2], ?_⟩
          intro e h
          have hw : ∀ v ∈ es ++ fs, WF v := by
            intro v hv
            rcases List.mem_append.1 hv with h | h
            · exact WF_arr.1 he v h
            · exact WF_arr.1 hz v h
          obtain ⟨r, hr, hre⟩ := uniqueFrom_covers (es ++ fs) hw [] e (by simp [h])
          exact ⟨r, by simpa [unique] using hr, hre⟩
    | .null => exact ⟨es, by simp [deep], fun e h => ⟨e, h, equals_refl (WF_arr.1 he e h)⟩⟩
    | .bool _ => exact ⟨es, by simp [deep], fun e h => ⟨e, h, equals_refl (WF_arr.1 he e h)⟩⟩
    | .int _ => exact ⟨es, by simp [deep], fun e h => ⟨e, h, equals_refl (WF_arr.1 he e h)⟩⟩
    | .str _ => exact ⟨es, by simp [deep], fun e h => ⟨e, h, equals_refl (WF_arr.1 he e h)⟩⟩
    | .map _ => exact ⟨es, by simp [deep], fun e h => ⟨e, h, equals_refl (WF_arr.1 he e h)⟩⟩
    | .sensitive _ => exact ⟨es, by simp [deep], fun e h => ⟨e, h, equals_refl (WF_arr.1 he e h)⟩⟩
    | .opaque _ => exact ⟨es, by simp [deep], fun e h => ⟨e, h, equals_refl (WF_arr.1 he e h)⟩⟩

/-- C12: empty values are neutral on the right. -/
theorem C12_neutral_right (a : Value) (ha : WF a) :
    deepMerge a (.map []) = (a, false) ∧ deepMerge a (.arr []) = (a, false) := by
  constructor
  · cases a with
    | map as =>
      have hde : deepMap as [] = as := by
        rw [deepMap_eq ha Entries.WF_nil, deepEntries_eq]
        simp [Entries.get_nil]
      rw [deepMerge, deep_map, hde, equals_refl ha]
      rfl
    | _ => simp [deepMerge, deep]
  · cases a <;> simp [deepMerge, deep]

/-- C12: empty values are neutral on the left. -/
theorem C12_neutral_left (bs : Entries) (cs : List Value) (hb : WF (.map bs)) :
    (deepMerge (.map []) (.map bs)).1 = .map bs ∧ (deepMerge (.arr []) (.arr cs)).1 = .arr cs := by
  constructor
  · have hde : deepMap [] bs = bs := by
      rw [deepMap_eq Entries.WF_nil hb, deepEntries_eq]
      simp [Entries.containsKey]
    rw [deepMerge, deep_map, hde]
    split
    · rename_i h
      cases bs with
      | nil => rfl
      | cons => simp [equals] at h
    · rfl
  · rw [deepMerge, deep]
    split
    · simp
    · rename_i h
      have : cs = [] := by simpa using h
      simp [this]

/-- C12: a value whose arrays have no duplicates is unchanged by merging it with itself. -/
theorem C12_idempotent (a : Value) (ha : WF a) (hn : NoDups a) : deepMerge a a = (a, false) := by
  have key : ∀ (n : Nat) (a : Value), sizeOf a < n → WF a → NoDups a → deep a a = (a, false) := by
    intro n
    induction n with
    | zero => intro a h; omega
    | succ n ih =>
      intro a hn ha hd
      cases a with
      | map as =>
        have nd : ∀ (as : Entries), NoDupsE as → ∀ e ∈ as, NoDups e.2 := by
          intro as
          induction as with
          | nil => intro _ e he; simp at he
          | cons f as ih =>
            obtain ⟨k, v⟩ := f
            intro h e he
            rw [NoDupsE] at h
            rcases List.mem_cons.1 he with rfl | he
            · exact h.1
            · exact ih h.2 e he
        rw [NoDups] at hd
        have hde : deepMap as as = as := by
          rw [deepMap_eq ha ha]
          have : as.filter (fun e => !Entries.containsKey as e.1) = [] := by
            rw [List.filter_eq_nil_iff]
            intro e he
            have we := (Entries.WF_of_mem ha he).1
            simp [Entries.containsKey_iff_get, Entries.get_of_mem ha he we (equals_refl we)]
          rw [this, List.append_nil, deepEntries_eq]
          conv => rhs; rw [← List.map_id as]
          apply List.map_congr_left
          intro e he
          have we := (Entries.WF_of_mem ha he).1
          rw [Entries.get_of_mem ha he we (equals_refl we)]
          simp only [deepValue_eq]
          rw [ih e.2 _ (Entries.WF_of_mem ha he).2 (nd as hd e he)]
          · rfl
          · have := (sizeOf_map_mem he).2; omega
        rw [deep_map, hde, equals_refl ha]
        rfl
      | arr es =>
        rw [NoDups] at hd
        rw [deep]
        split
        · rename_i h1
          rw [if_neg (by omega)]
          have hu : unique (es ++ es) = es := by
            rw [unique_append, unique_id hd]
            have : uniqueFrom es es = [] := by
              have aux : ∀ (xs : List Value), (∀ x ∈ xs, x ∈ es) → uniqueFrom es xs = [] := by
                intro xs
                induction xs with
                | nil => intro _; rfl
                | cons x xs ih =>
                  intro h
                  rw [uniqueFrom, if_pos, ih (fun y hy => h y (by simp [hy]))]
                  simp only [List.any_eq_true]
                  exact ⟨x, h x (by simp), equals_refl (WF_arr.1 ha x (h x (by simp)))⟩
              exact aux es (fun x h => h)
            simp [this]
          simp only [hu, equals_refl ha]
          rfl
        · rfl
      | _ => simp [deep]
  exact key _ a (Nat.lt_succ_self _) ha hn

/-- Without the hypothesis the last statement is false: duplicates are removed. -/
theorem C12_idempotent_needs_nodups :
    deepMerge (.arr [.int 1, .int 1]) (.arr [.int 1, .int 1]) = (.arr [.int 1], true) := by decide

example : NoDups (.map [(.str ['a'], .arr [.int 1, .int 2])]) := by simp [NoDups, NoDupsE]

/-! ### C14 -/

/-- C14: the names are closed, and a strategy reports the name it was asked for. -/
theorem C14_names (n : Str) (opts : Option Entries) :
    ((∃ s, getStrategy n opts = .ok s) ↔ n ∈ ["first".toList, "unique".toList, "hash".toList, "deep".toList]) ∧
    (∀ s, getStrategy n opts = .ok s → s.name = n) ∧
    (∀ e, getStrategy n opts = .panic e → e = .unknownStrategy n) := by
  unfold getStrategy
  refine ⟨?_, ?_, ?_⟩
  · by_cases h1 : n = "first".toList
    · simp [h1]
    · by_cases h2 : n = "unique".toList
      · rw [if_neg h1, if_pos h2]; simp [h2]
      · by_cases h3 : n = "hash".toList
        · rw [if_neg h1, if_neg h2, if_pos h3]; simp [h3]
        · by_cases h4 : n = "deep".toList
          · rw [if_neg h1, if_neg h2, if_neg h3, if_pos h4]; simp [h4]
          · rw [if_neg h1, if_neg h2, if_neg h3, if_neg h4]
            simp only [reduceCtorEq, exists_false, List.mem_cons, h1, h2, h3, h4, List.not_mem_nil, or_false]
  · intro s h
    split at h
    · rename_i hn; cases h; exact hn.symm
    · split at h
      · rename_i hn; cases h; exact hn.symm
      · split at h
        · rename_i hn; cases h; exact hn.symm
        · split at h
          · rename_i hn; cases h; exact hn.symm
          · cases h
  · intro e h
    split at h
    · cases h
    · split at h
      · cases h
      · split at h
        · cases h
        · split at h
          · cases h
          · cases h; rfl

end Hiera
