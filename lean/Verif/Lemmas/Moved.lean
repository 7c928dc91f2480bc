/- The merge of two merges, as one. -/
import Verif.Spec.Moved
import Verif.Lemmas.Grouped
import Verif.Props.Modular
import Verif.Props.Repeated

set_option autoImplicit false

namespace Hiera
open Value Spec World

theorem inParts_groupable {st : Str} {stv : Strategy} (h : getStrategy st none = .ok stv) {vs : List Value} (hp : InParts st vs)
    (hw : ∀ v ∈ vs, WF v) : Groupable stv vs := by
  refine ⟨hw, ?_⟩
  have hn := strategy_by_name h
  cases stv with
  | first => trivial
  | unique => trivial
  | hash => exact hp.hash (by rw [← hn]; rfl)
  | deep o => exact hp.deep (by rw [← hn]; rfl)

/-- What one part gives: the values combined, or, for `unique` and a part of one level, the only value without what it has twice. -/
theorem outcome_part {stv : Strategy} (hf : stv ≠ .first) (ls : List Level) (key : Str) :
    outcome stv ls key = refCombine stv (valuesOf ls key) ∨ ∃ v, valuesOf ls key = [v] ∧ outcome stv ls key = some (stv.single v) := by
  unfold outcome
  split
  · exact absurd rfl hf
  · rename_i l _
    rw [valuesOf_cons]
    cases hv : l.has key with
    | none => exact .inl rfl
    | some v => exact .inr ⟨v, rfl, rfl⟩
  · exact .inl rfl

theorem single_other {stv : Strategy} (h : stv ≠ .unique) (v : Value) : stv.single v = v := by
  cases stv with
  | unique => exact absurd rfl h
  | _ => rfl

theorem convert_other {stv : Strategy} (h : stv ≠ .unique) (v : Value) : stv.convertValue v = v := by
  cases stv with
  | unique => exact absurd rfl h
  | _ => rfl

theorem unique_single (v : Value) : unique (convertUnique (Strategy.unique.single v)) = unique (flattenV v) := by
  have flat : ∀ xs : List Value, flatten (unique (flatten xs)) = unique (flatten xs) := fun xs =>
    flatten_flat _ (fun e he => flatten_no_arr xs e (unique_mem he))
  cases v with
  | arr es =>
    show unique (flatten (unique (flatten es))) = unique (flatten es)
    rw [flat]
    have := unique_unique_append (flatten es) []
    simpa using this
  | _ => rfl

/-- What one part gives for `unique`, up to what is there twice. -/
theorem unique_part (ls : List Level) (key : Str) :
    (valuesOf ls key = [] ∧ outcome .unique ls key = none) ∨ ∃ A, outcome .unique ls key = some A ∧
      unique (convertUnique A) = unique (flatten (valuesOf ls key)) ∧ ∀ x ∈ convertUnique A, x ∈ flatten (valuesOf ls key) := by
  rcases outcome_part (stv := .unique) (by simp) ls key with h | ⟨v, h1, h2⟩
  · cases hV : valuesOf ls key with
    | nil => rw [hV] at h; exact .inl ⟨rfl, h⟩
    | cons u us =>
      right
      rw [← hV]
      obtain ⟨A, hA⟩ := refCombine_some .unique (xs := valuesOf ls key) (by rw [hV]; simp)
      obtain ⟨xs, rfl, h1, h2, h3⟩ := unique_combined hA
      refine ⟨_, h.trans hA, ?_, ?_⟩
      · show unique (flatten xs) = _
        rw [flatten_flat xs h1, h3]
      · intro x hx
        have hx : x ∈ flatten xs := hx
        rw [flatten_flat xs h1] at hx
        exact h2 x hx
  · right
    refine ⟨_, h2, ?_, ?_⟩
    · rw [unique_single, h1]
      simp [flatten]
    · intro x hx
      rw [h1]
      cases v with
      | arr es =>
        have hx : x ∈ flatten (unique (flatten es)) := hx
        rw [flatten_flat _ (fun e he => flatten_no_arr es e (unique_mem he))] at hx
        simpa [flatten, flattenV] using unique_mem hx
      | _ => simpa [flatten, flattenV, Strategy.single, convertUnique] using hx

theorem unique_two {xs ys xs' ys' : List Value} (hx : ∀ x ∈ xs', WF x) (hy : ∀ y ∈ ys, WF y) (hy' : ∀ y ∈ ys', WF y)
    (h1 : unique xs = unique xs') (h2 : unique ys = unique ys') : unique (xs ++ ys) = unique (xs' ++ ys') := by
  rw [← unique_unique_append xs ys, h1, unique_unique_append, ← unique_append_unique hx hy, h2, unique_append_unique hx hy']

/-- If only one part has something. -/
theorem one_part {ls : List Level} {key : Str} (ha : ∀ v, valuesOf ls key = [v] → ∀ xs, Spec.Leaves v xs → xs.Pairwise (fun a b => equals a b = false))
    {A : Value} (h : outcome .unique ls key = some A) : refCombine .unique ((none : Option Value).toList ++ (outcome .unique ls key).toList) =
      refCombine .unique (valuesOf ls key) := by
  rcases outcome_part (stv := .unique) (by simp) ls key with h' | ⟨v, h1, h2⟩
  · rw [h] at h'
    rw [h, ← h']
    show some (Strategy.unique.convertValue A) = some A
    rw [convert_combined h'.symm]
  · rw [h2, h1]
    show some (Strategy.unique.convertValue (Strategy.unique.single v)) = some (Strategy.unique.convertValue v)
    cases v with
    | arr es =>
      show some (Value.arr (flatten (unique (flatten es)))) = some (Value.arr (flatten es))
      rw [unique_id (ha _ h1 _ (leaves_flattenV _) : (flatten es).Pairwise _), flatten_flat _ (flatten_no_arr es)]
    | _ => rfl

theorem both_two {stv : Strategy} {ls ms : List Level} {key : Str} (hf : stv ≠ .first) :
    bothValue stv ls ms key = refCombine stv ((outcome stv ls key).toList ++ (outcome stv ms key).toList) := by
  rw [← valuesOf_sides key]
  unfold bothValue
  conv => lhs; unfold outcome
  split
  · exact absurd rfl hf
  · rename_i h; cases h
  · rfl

/-- The merge of what the two parts give is the merge of all values. -/
theorem both_combined {st : Str} {stv : Strategy} (hst : getStrategy st none = .ok stv) {ls ms : List Level} {key : Str}
    (hw : ∀ v ∈ valuesOf ls key ++ valuesOf ms key, WF v) (hp : InParts st (valuesOf ls key ++ valuesOf ms key)) :
    bothValue stv ls ms key = refCombine stv (valuesOf ls key ++ valuesOf ms key) := by
  have two := both_two (stv := stv) (ls := ls) (ms := ms) (key := key)
  have hg := inParts_groupable hst hp hw
  by_cases hf : stv = .first
  · subst hf
    have first : ∀ vs : List Value, refCombine .first vs = vs.head? := fun vs => by
      cases vs with
      | nil => rfl
      | cons v vs =>
        show some (vs.foldl Strategy.first.merge v) = some v
        congr 1
        induction vs with
        | nil => rfl
        | cons w vs ih => exact ih
    rw [first]
    show (valuesOf [side key _, side key _] key).head? = _
    rw [valuesOf_sides]
    show ((valuesOf ls key).head?.toList ++ (valuesOf ms key).head?.toList).head? = _
    cases valuesOf ls key <;> cases valuesOf ms key <;> rfl
  · by_cases hu : stv = .unique
    · subst hu
      rw [two hf]
      rcases unique_part ls key with ⟨e1, o1⟩ | ⟨A, o1, u1, m1⟩
      · rcases unique_part ms key with ⟨e2, o2⟩ | ⟨B, o2, u2, m2⟩
        · rw [e1, e2, o1, o2]; rfl
        · rw [e1, List.nil_append] at hp ⊢
          rw [o1]
          exact one_part (fun v h => hp.alone (by rw [← strategy_by_name hst]; rfl) v h) o2
      · rcases unique_part ms key with ⟨e2, o2⟩ | ⟨B, o2, u2, m2⟩
        · rw [e2, List.append_nil] at hp ⊢
          rw [o2]
          have := one_part (fun v h => hp.alone (by rw [← strategy_by_name hst]; rfl) v h) o1
          simpa using this
        · have n1 : valuesOf ls key ≠ [] := fun h => by
            rcases outcome_part (stv := .unique) (by simp) ls key with h' | ⟨v, h', _⟩
            · rw [h] at h'; rw [h'] at o1; cases o1
            · rw [h] at h'; cases h'
          have n2 : valuesOf ms key ≠ [] := fun h => by
            rcases outcome_part (stv := .unique) (by simp) ms key with h' | ⟨v, h', _⟩
            · rw [h] at h'; rw [h'] at o2; cases o2
            · rw [h] at h'; cases h'
          obtain ⟨A', hA⟩ := refCombine_some .unique n1
          obtain ⟨B', hB⟩ := refCombine_some .unique n2
          rw [joins_unique _ _ _ _ hg hA hB, o1, o2]
          obtain ⟨as, rfl, a1, a2, a3⟩ := unique_combined hA
          obtain ⟨bs, rfl, b1, b2, b3⟩ := unique_combined hB
          have w1 := flatten_WF (valuesOf ls key) (fun v h => hw v (by simp [h]))
          have w2 := flatten_WF (valuesOf ms key) (fun v h => hw v (by simp [h]))
          show some (Value.arr (unique (flatten (convertUnique A) ++ convertUnique B))) = some (.arr (unique (flatten as ++ flatten bs)))
          rw [flatten_flat as a1, flatten_flat bs b1]
          have fa : flatten (convertUnique A) = convertUnique A := flatten_flat _ (fun x hx => flatten_no_arr _ x (m1 x hx))
          rw [fa]
          congr 2
          exact unique_two (fun x h => w1 x (a2 x h)) (fun x h => w2 x (m2 x h)) (fun x h => w2 x (b2 x h)) (u1.trans a3.symm) (u2.trans b3.symm)
    · rw [two hf]
      have part : ∀ ls : List Level, outcome stv ls key = refCombine stv (valuesOf ls key) := fun ls => by
        rcases outcome_part hf ls key with h | ⟨v, h1, h2⟩
        · exact h
        · rw [h2, h1, single_other hu]
          show some v = some (stv.convertValue v)
          rw [convert_other hu]
      rw [part, part]
      cases hV : valuesOf ls key with
      | nil =>
        cases hW : valuesOf ms key with
        | nil => rfl
        | cons w ws =>
          obtain ⟨B, hB⟩ := refCombine_some stv (xs := w :: ws) (by simp)
          rw [List.nil_append, hB]
          show some (stv.convertValue B) = some B
          rw [convert_other hu]
      | cons v vs =>
        obtain ⟨A, hA⟩ := refCombine_some stv (xs := v :: vs) (by simp)
        cases hW : valuesOf ms key with
        | nil =>
          rw [List.append_nil, hA]
          show some (stv.convertValue A) = some A
          rw [convert_other hu]
        | cons w ws =>
          obtain ⟨B, hB⟩ := refCombine_some stv (xs := w :: ws) (by simp)
          rw [hV, hW] at hg
          rw [joins hf _ _ _ _ hg hA hB, hA, hB]
          show some (stv.merge (stv.convertValue A) B) = _
          rw [convert_other hu]

end Hiera
