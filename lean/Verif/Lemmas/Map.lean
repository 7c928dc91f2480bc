/- Auxiliary lemmas about dgo maps. -/
import Verif.Lemmas.Value

set_option autoImplicit false

namespace Hiera
open Value

@[simp] theorem equals_str (a b : Str) : equals (.str a) (.str b) = (a == b) := by rw [equals]
@[simp] theorem equals_int (a b : Int) : equals (.int a) (.int b) = (a == b) := by rw [equals]
@[simp] theorem equals_str_int (a : Str) (b : Int) : equals (.str a) (.int b) = false := by simp [equals]
@[simp] theorem equals_int_str (a : Int) (b : Str) : equals (.int a) (.str b) = false := by simp [equals]
@[simp] theorem WF_str (s : Str) : WF (.str s) := by simp [WF]
@[simp] theorem WF_int (s : Int) : WF (.int s) := by simp [WF]
@[simp] theorem WF_null : WF .null := by simp [WF]

/-- `equals` cannot distinguish equal arguments. -/
theorem equals_congr_left {a b c : Value} (ha : WF a) (hb : WF b) (hc : WF c) (h : equals a b = true) :
    equals a c = equals b c := by
  cases h1 : equals a c <;> cases h2 : equals b c <;> first | rfl | skip
  · simp [equals_trans ha hb hc h h2] at h1
  · simp [equals_trans hb ha hc (equals_symm ha hb h) h1] at h2

theorem equals_congr_right {a b c : Value} (ha : WF a) (hb : WF b) (hc : WF c) (h : equals a b = true) :
    equals c a = equals c b := by
  rw [equals_comm hc ha, equals_comm hc hb, equals_congr_left ha hb hc h]

namespace Entries

theorem get_nil (k : Value) : Entries.get [] k = none := rfl

theorem get_cons (e : Value × Value) (es : Entries) (k : Value) :
    Entries.get (e :: es) k = if equals k e.1 then some e.2 else Entries.get es k := by
  simp only [Entries.get, List.find?_cons]
  cases equals k e.1 <;> simp

theorem containsKey_iff_get (es : Entries) (k : Value) : Entries.containsKey es k = (Entries.get es k).isSome := by
  induction es with
  | nil => rfl
  | cons e es ih =>
    rw [get_cons, Entries.containsKey, List.any_cons]
    cases h : equals k e.1
    · simpa [Entries.containsKey] using ih
    · simp

theorem get_eq_none {es : Entries} {k : Value} : Entries.get es k = none ↔ ∀ e ∈ es, equals k e.1 = false := by
  simp [Entries.get]

theorem get_mem {es : Entries} {k v : Value} (h : Entries.get es k = some v) :
    ∃ e ∈ es, equals k e.1 = true ∧ e.2 = v := by
  simp only [Entries.get, Option.map_eq_some_iff] at h
  obtain ⟨e, he, rfl⟩ := h
  exact ⟨e, List.mem_of_find?_eq_some he, by simpa using List.find?_some he, rfl⟩

theorem get_append (es fs : Entries) (k : Value) :
    Entries.get (es ++ fs) k = (Entries.get es k).or (Entries.get fs k) := by
  simp [Entries.get, List.find?_append, Option.map_or]

/-- Entries of a well-formed map are found by their keys. -/
theorem get_of_mem {es : Entries} (hw : WF (.map es)) {e : Value × Value} (he : e ∈ es) {k : Value} (hk : WF k)
    (h : equals k e.1 = true) : Entries.get es k = some e.2 := by
  obtain ⟨we, hu⟩ := WF_map.1 hw
  rw [Entries.get, find_unique hu he h]
  · rfl
  · exact fun g hg => equals_symm hk (we g hg).1
  · exact fun g hg g' hg' => equals_trans (we g hg).1 hk (we g' hg').1

theorem get_congr {es : Entries} (hw : WF (.map es)) {k l : Value} (hk : WF k) (hl : WF l) (h : equals k l = true) :
    Entries.get es k = Entries.get es l := by
  have we := (WF_map.1 hw).1
  simp only [Entries.get]
  congr 1
  have : ∀ e ∈ es, equals k e.1 = equals l e.1 := fun e he => equals_congr_left hk hl (we e he).1 h
  clear hw we
  induction es with
  | nil => rfl
  | cons e es ih =>
    rw [List.find?_cons, List.find?_cons, this e (by simp), ih (fun x hx => this x (by simp [hx]))]

theorem mem_put {es : Entries} {k v : Value} {e : Value × Value} (h : e ∈ Entries.put es k v) :
    e ∈ es ∨ e = (k, v) ∨ ∃ w, (e.1, w) ∈ es ∧ e.2 = v := by
  induction es with
  | nil => simp [Entries.put] at h; exact .inr (.inl h)
  | cons f es ih =>
    obtain ⟨k', v'⟩ := f
    rw [Entries.put] at h
    split at h
    · rcases List.mem_cons.1 h with rfl | h
      · exact .inr (.inr ⟨v', by simp⟩)
      · exact .inl (by simp [h])
    · rcases List.mem_cons.1 h with rfl | h
      · exact .inl (by simp)
      · rcases ih h with h | h | ⟨w, h, h'⟩
        · exact .inl (by simp [h])
        · exact .inr (.inl h)
        · exact .inr (.inr ⟨w, by simp [h], h'⟩)

/-- The keys of `put`: unchanged, or the new key appended. -/
theorem put_keys (es : Entries) (k v : Value) :
    (Entries.put es k v).map (·.1) = if Entries.containsKey es k then es.map (·.1) else es.map (·.1) ++ [k] := by
  induction es with
  | nil => simp [Entries.put, Entries.containsKey]
  | cons e es ih =>
    obtain ⟨k', v'⟩ := e
    rw [Entries.put]
    simp only [Entries.containsKey, List.any_cons] at ih ⊢
    by_cases h : equals k k' = true
    · simp [h]
    · simp only [h, Bool.false_eq_true, ↓reduceIte, List.map_cons, Bool.false_or, ih]
      split <;> rename_i h' <;> simp [h']

theorem uniqueKeys_iff (es : Entries) : UniqueKeys es ↔ (es.map (·.1)).Pairwise (fun a b => equals a b = false) := by
  simp [UniqueKeys, List.pairwise_map]

theorem WF_put {es : Entries} {k v : Value} (hw : WF (.map es)) (hk : WF k) (hv : WF v) :
    WF (.map (Entries.put es k v)) := by
  obtain ⟨we, hu⟩ := WF_map.1 hw
  rw [WF_map]
  constructor
  · intro e he
    rcases mem_put he with h | rfl | ⟨w, h, h'⟩
    · exact we e h
    · exact ⟨hk, hv⟩
    · exact ⟨(we _ h).1, h' ▸ hv⟩
  · rw [uniqueKeys_iff] at hu ⊢
    rw [put_keys]
    split
    · exact hu
    · rename_i h
      rw [List.pairwise_append]
      refine ⟨hu, by simp, ?_⟩
      intro a ha b hb
      simp only [List.mem_singleton] at hb
      subst hb
      obtain ⟨e, he, rfl⟩ := List.mem_map.1 ha
      rw [equals_comm (we e he).1 hk]
      simp only [Entries.containsKey, Bool.not_eq_true, List.any_eq_false] at h
      simpa using h e he

theorem get_put {es : Entries} {k v k' : Value} (hw : WF (.map es)) (hk : WF k) (hk' : WF k') :
    Entries.get (Entries.put es k v) k' = if equals k k' then some v else Entries.get es k' := by
  have we := (WF_map.1 hw).1
  clear hw
  induction es with
  | nil => simp [Entries.put, get_cons, get_nil, equals_comm hk' hk]
  | cons e es ih =>
    obtain ⟨k0, v0⟩ := e
    have w0 := (we (k0, v0) (by simp)).1
    have ih := ih (fun e he => we e (by simp [he]))
    rw [Entries.put]
    split
    · rename_i h
      rw [get_cons, get_cons]
      simp only
      rw [← equals_congr_right hk w0 hk' h, equals_comm hk' hk]
      split <;> rfl
    · rename_i h
      rw [get_cons, get_cons, ih]
      simp only
      cases h1 : equals k' k0
      · simp
      · cases h2 : equals k k'
        · simp
        · exact absurd (equals_trans hk hk' w0 h2 h1) h

theorem put_of_not_contains {es : Entries} {k v : Value} (h : Entries.containsKey es k = false) :
    Entries.put es k v = es ++ [(k, v)] := by
  induction es with
  | nil => rfl
  | cons e es ih =>
    obtain ⟨k', v'⟩ := e
    simp only [Entries.containsKey, List.any_cons, Bool.or_eq_false_iff] at h
    simp [Entries.put, h.1, ih (by simpa [Entries.containsKey] using h.2)]

theorem WF_putAll {fs : Entries} : ∀ {es : Entries}, WF (.map es) → (∀ e ∈ fs, WF e.1 ∧ WF e.2) →
    WF (.map (Entries.putAll es fs)) := by
  induction fs with
  | nil => intro es h _; exact h
  | cons f fs ih =>
    intro es h hf
    have := hf f (by simp)
    exact ih (WF_put h this.1 this.2) (fun e he => hf e (by simp [he]))

/-- `PutAll`: the argument wins. -/
theorem get_putAll {fs : Entries} : ∀ {es : Entries}, WF (.map es) → WF (.map fs) → ∀ {k : Value}, WF k →
    Entries.get (Entries.putAll es fs) k = (Entries.get fs k).or (Entries.get es k) := by
  induction fs with
  | nil => intro es _ _ k _; simp [Entries.putAll, get_nil]
  | cons f fs ih =>
    intro es h hf k hk
    obtain ⟨wf, hu⟩ := WF_map.1 hf
    have w1 := wf f (by simp)
    have hfs : WF (.map fs) := WF_map.2 ⟨fun e he => wf e (by simp [he]), (List.pairwise_cons.1 hu).2⟩
    show Entries.get (Entries.putAll (Entries.put es f.1 f.2) fs) k = _
    rw [ih (WF_put h w1.1 w1.2) hfs hk, get_put h w1.1 hk, get_cons, equals_comm hk w1.1]
    cases hfk : equals f.1 k
    · simp
    · have : Entries.get fs k = none := by
        rw [get_eq_none]
        intro e he
        rw [← equals_congr_left w1.1 hk (wf e (by simp [he])).1 hfk]
        exact (List.pairwise_cons.1 hu).1 e he
      simp [this]

theorem WF_nil : WF (.map []) := by simp [WF_map, UniqueKeys]

theorem putAll_nil_left {fs : Entries} (hf : WF (.map fs)) : Entries.putAll [] fs = fs := by
  have key : ∀ (fs es : Entries), WF (.map (es ++ fs)) → Entries.putAll es fs = es ++ fs := by
    intro fs
    induction fs with
    | nil => intro es _; simp [Entries.putAll]
    | cons f fs ih =>
      intro es h
      have hc : Entries.containsKey es f.1 = false := by
        obtain ⟨we, hu⟩ := WF_map.1 h
        rw [UniqueKeys, List.pairwise_append] at hu
        simp only [Entries.containsKey, List.any_eq_false, Bool.not_eq_true]
        intro e he
        rw [equals_comm (we f (by simp)).1 (we e (by simp [he])).1]
        exact hu.2.2 e he f (by simp)
      show Entries.putAll (Entries.put es f.1 f.2) fs = _
      rw [put_of_not_contains hc, ih]
      · simp
      · simpa using h
  simpa using key fs [] (by simpa using hf)

theorem merge_eq_putAll {es fs : Entries} (hf : WF (.map fs)) : Entries.merge es fs = Entries.putAll es fs := by
  unfold Entries.merge
  split
  · rename_i h; rw [List.isEmpty_iff.1 h]; rfl
  · split
    · rename_i h; rw [List.isEmpty_iff.1 h, putAll_nil_left hf]
    · rfl

theorem get_merge {es fs : Entries} (he : WF (.map es)) (hf : WF (.map fs)) {k : Value} (hk : WF k) :
    Entries.get (Entries.merge es fs) k = (Entries.get fs k).or (Entries.get es k) := by
  rw [merge_eq_putAll hf, get_putAll he hf hk]

theorem WF_merge {es fs : Entries} (he : WF (.map es)) (hf : WF (.map fs)) : WF (.map (Entries.merge es fs)) := by
  rw [merge_eq_putAll hf]
  exact WF_putAll he (WF_map.1 hf).1

theorem WF_without {es : Entries} {k : Value} (he : WF (.map es)) : WF (.map (Entries.without es k)) := by
  obtain ⟨we, hu⟩ := WF_map.1 he
  rw [WF_map]
  exact ⟨fun e h => we e (List.mem_of_mem_filter h), List.Pairwise.filter _ hu⟩

/-- Two maps with the same bindings (up to `Equals`) are `Equals`. -/
theorem WF_of_mem {es : Entries} (h : WF (.map es)) {e : Value × Value} (he : e ∈ es) : WF e.1 ∧ WF e.2 :=
  (WF_map.1 h).1 e he

theorem WF_of_get {es : Entries} (h : WF (.map es)) {k v : Value} (hg : Entries.get es k = some v) : WF v := by
  obtain ⟨e, he, _, rfl⟩ := get_mem hg
  exact (WF_of_mem h he).2

theorem equals_map_iff {es fs : Entries} (he : WF (.map es)) (hf : WF (.map fs)) :
    equals (.map es) (.map fs) = true ↔ es.length = fs.length ∧
      ∀ k v, WF k → Entries.get es k = some v → ∃ w, Entries.get fs k = some w ∧ equals v w = true := by
  simp only [equals, Bool.and_eq_true, beq_iff_eq, equalsMap_iff]
  apply and_congr_right
  intro _
  constructor
  · intro h k v hk hg
    obtain ⟨e, hm, hke, rfl⟩ := get_mem hg
    obtain ⟨f, hff, hv⟩ := h e hm
    refine ⟨f.2, ?_, hv⟩
    rw [get_congr hf hk (WF_of_mem he hm).1 hke]
    simp [Entries.get, hff]
  · intro h e hm
    have := get_of_mem he hm (WF_of_mem he hm).1 (equals_refl (WF_of_mem he hm).1)
    obtain ⟨w, hw, hv⟩ := h e.1 e.2 (WF_of_mem he hm).1 this
    simp only [Entries.get, Option.map_eq_some_iff] at hw
    obtain ⟨f, hf, rfl⟩ := hw
    exact ⟨f, hf, hv⟩

end Entries
end Hiera
