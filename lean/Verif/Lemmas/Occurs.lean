/- What operations on values do to the strings in them. -/
import Verif.Spec.Acyclic
import Verif.Lemmas.Merge

set_option autoImplicit false

namespace Hiera
open Spec Value

variable {p : Str → Prop}

theorem clean_str {s : Str} : Clean p (.str s) ↔ p s :=
  ⟨fun h => h s .str, fun h t ht => by cases ht; exact h⟩

theorem clean_arr {es : List Value} : Clean p (.arr es) ↔ ∀ v ∈ es, Clean p v :=
  ⟨fun h v hv s hs => h s (.elem hv hs), fun h s hs => by cases hs with | elem hv hs => exact h _ hv _ hs⟩

theorem clean_map {es : Entries} : Clean p (.map es) ↔ ∀ e ∈ es, Clean p e.1 ∧ Clean p e.2 :=
  ⟨fun h e he => ⟨fun s hs => h s (.key he hs), fun s hs => h s (.val he hs)⟩, fun h s hs => by
    cases hs with
    | key hm hs => exact (h _ hm).1 _ hs
    | val hm hs => exact (h _ hm).2 _ hs⟩

theorem clean_null : Clean p .null := fun _ hs => nomatch hs
theorem clean_int {i : Int} : Clean p (.int i) := fun _ hs => nomatch hs

theorem clean_get {es : Entries} (h : Clean p (.map es)) {k v : Value} (hg : Entries.get es k = some v) : Clean p v := by
  obtain ⟨e, he, _, rfl⟩ := Entries.get_mem hg
  exact (clean_map.1 h _ he).2

theorem clean_getS {es : Entries} (h : Clean p (.map es)) {k : Str} {v : Value} (hg : Entries.getS es k = some v) :
    Clean p v := clean_get h hg

theorem clean_put {es : Entries} (h : Clean p (.map es)) {k v : Value} (hk : Clean p k) (hv : Clean p v) :
    Clean p (.map (Entries.put es k v)) := by
  induction es with
  | nil =>
    rw [clean_map]
    intro e he
    simp only [Entries.put, List.mem_singleton] at he
    subst he
    exact ⟨hk, hv⟩
  | cons e es ih =>
    have h' := clean_map.1 h
    unfold Entries.put
    by_cases hq : Value.equals k e.1 = true
    · rw [if_pos hq, clean_map]
      intro f hf
      rcases List.mem_cons.1 hf with rfl | hf
      · exact ⟨(h' e (List.mem_cons_self ..)).1, hv⟩
      · exact h' f (List.mem_cons_of_mem _ hf)
    · rw [if_neg hq, clean_map]
      intro f hf
      rcases List.mem_cons.1 hf with rfl | hf
      · exact h' e (List.mem_cons_self ..)
      · exact clean_map.1 (ih (clean_map.2 (fun g hg => h' g (List.mem_cons_of_mem _ hg)))) f hf

theorem clean_putAll {fs : Entries} (hf : Clean p (.map fs)) : ∀ {es : Entries}, Clean p (.map es) →
    Clean p (.map (Entries.putAll es fs)) := by
  induction fs with
  | nil => intro es h; exact h
  | cons f fs ih =>
    intro es h
    have hf' := clean_map.1 hf
    have h1 := hf' f (List.mem_cons_self ..)
    exact ih (clean_map.2 (fun g hg => hf' g (List.mem_cons_of_mem _ hg))) (clean_put h h1.1 h1.2)

theorem clean_merge {es fs : Entries} (he : Clean p (.map es)) (hf : Clean p (.map fs)) :
    Clean p (.map (Entries.merge es fs)) := by
  unfold Entries.merge
  split
  · exact he
  · split
    · exact hf
    · exact clean_putAll hf he

theorem clean_nil : Clean p (.map []) := clean_map.2 (fun _ h => by cases h)

theorem clean_unique {vs : List Value} (h : Clean p (.arr vs)) : Clean p (.arr (unique vs)) :=
  clean_arr.2 (fun v hv => clean_arr.1 h v (unique_mem hv))

mutual
theorem clean_flattenV : ∀ {v : Value}, Clean p v → ∀ x ∈ flattenV v, Clean p x
  | .arr es, h => by rw [flattenV]; exact clean_flatten (clean_arr.1 h)
  | .null, h => by simpa [flattenV] using h
  | .bool _, h => by simpa [flattenV] using h
  | .int _, h => by simpa [flattenV] using h
  | .str _, h => by simpa [flattenV] using h
  | .map _, h => by simpa [flattenV] using h
  | .sensitive _, h => by simpa [flattenV] using h
  | .opaque _, h => by simpa [flattenV] using h
theorem clean_flatten : ∀ {vs : List Value}, (∀ v ∈ vs, Clean p v) → ∀ x ∈ flatten vs, Clean p x
  | [], _ => by simp [flatten]
  | v :: vs, h => by
    intro x hx
    rw [flatten, List.mem_append] at hx
    rcases hx with hx | hx
    · exact clean_flattenV (h v (List.mem_cons_self ..)) x hx
    · exact clean_flatten (fun w hw => h w (List.mem_cons_of_mem _ hw)) x hx
end

theorem clean_convertUnique {v : Value} (h : Clean p v) : Clean p (.arr (convertUnique v)) := by
  rw [convertUnique_eq]
  exact clean_arr.2 (clean_flattenV h)

theorem clean_deepBelow : ∀ n, ∀ a b : Value, sizeOf a < n → Clean p a → Clean p b → Clean p (deep a b).1 := by
  intro n
  induction n with
  | zero => intro a b h; omega
  | succ n ih =>
    intro a b hn ha hb
    by_cases hf : (deep a b).2 = false
    · rw [deep_false hf]; exact ha
    unfold deep at hf ⊢
    split
    · rename_i as bs
      have h1 : Clean p (.map (deepEntries as bs)) := by
        rw [deepEntries_eq, clean_map]
        intro e he
        obtain ⟨f, hf, rfl⟩ := List.mem_map.1 he
        refine ⟨(clean_map.1 ha f hf).1, ?_⟩
        dsimp only
        cases hg : Entries.get bs f.1 with
        | none => exact (clean_map.1 ha f hf).2
        | some bv =>
          dsimp only
          rw [deepValue_eq]
          have := sizeOf_map_mem hf
          exact ih _ _ (by omega) (clean_map.1 ha f hf).2 (clean_get hb hg)
      have h2 : Clean p (.map (bs.filter (fun e => !Entries.containsKey as e.1))) :=
        clean_map.2 (fun e he => clean_map.1 hb e (List.mem_of_mem_filter he))
      dsimp only
      split
      · exact clean_putAll h2 (clean_putAll h1 clean_nil)
      · exact ha
    · rename_i as bs
      dsimp only
      split
      · split
        · exact hb
        · split
          · refine clean_unique (clean_arr.2 (fun v hv => ?_))
            rcases List.mem_append.1 hv with hv | hv
            · exact clean_arr.1 ha v hv
            · exact clean_arr.1 hb v hv
          · exact ha
      · exact ha
    · exact ha

theorem clean_deep {a b : Value} (ha : Clean p a) (hb : Clean p b) : Clean p (deep a b).1 :=
  clean_deepBelow _ a b (Nat.lt_succ_self _) ha hb

theorem clean_strategyMerge (st : Strategy) {a b : Value} (ha : Clean p a) (hb : Clean p b) : Clean p (st.merge a b) := by
  cases st with
  | first => exact ha
  | unique =>
    refine clean_unique (clean_arr.2 (fun v hv => ?_))
    rcases List.mem_append.1 hv with hv | hv
    · exact clean_arr.1 (clean_convertUnique ha) v hv
    · exact clean_arr.1 (clean_convertUnique hb) v hv
  | hash =>
    cases a <;> cases b <;> first | exact ha | exact clean_merge hb ha
  | deep o => exact clean_deep ha hb

theorem clean_convertValue (st : Strategy) {a : Value} (ha : Clean p a) : Clean p (st.convertValue a) := by
  cases st with
  | unique => exact clean_convertUnique ha
  | _ => exact ha

theorem clean_single (st : Strategy) {a : Value} (ha : Clean p a) : Clean p (st.single a) := by
  unfold Strategy.single
  split
  · exact clean_unique (clean_arr.2 (clean_flatten (clean_arr.1 ha)))
  · exact ha

theorem clean_digSegment {q : Part} {v w : Value} (hv : Clean p v) (h : digSegment q v = some w) : Clean p w := by
  unfold digSegment at h
  split at h
  · split at h
    · split at h
      · exact clean_arr.1 hv _ (List.mem_of_getElem? h)
      · cases h
    · cases h
  · exact clean_get hv h
  · cases h

theorem clean_mono {q : Str → Prop} (hpq : ∀ s, p s → q s) {v : Value} (h : Clean p v) : Clean q v :=
  fun s hs => hpq s (h s hs)

theorem cleanO_some {v : Value} : CleanO p (some v) ↔ Clean p v :=
  ⟨fun h => h v rfl, fun h x hx => by cases hx; exact h⟩

theorem cleanO_none : CleanO p none := fun _ h => by cases h

mutual
theorem plain_of_clean (h : ∀ s, p s → ¬Marked s) : ∀ (v : Value), Clean p v → Plain v
  | .str s, hv => .str (h s (clean_str.1 hv))
  | .arr es, hv => .arr (plainL_of_clean h es (clean_arr.1 hv))
  | .map es, hv => .map (plainE_of_clean h es (clean_map.1 hv))
  | .null, _ => .null
  | .bool _, _ => .bool
  | .int _, _ => .int
  | .sensitive _, _ => .sensitive
  | .opaque _, _ => .opaque
theorem plainL_of_clean (h : ∀ s, p s → ¬Marked s) : ∀ (vs : List Value), (∀ v ∈ vs, Clean p v) → PlainL vs
  | [], _ => .nil
  | v :: vs, hv => .cons (plain_of_clean h v (hv v (List.mem_cons_self ..)))
      (plainL_of_clean h vs (fun w hw => hv w (List.mem_cons_of_mem _ hw)))
theorem plainE_of_clean (h : ∀ s, p s → ¬Marked s) : ∀ (es : List (Value × Value)),
    (∀ e ∈ es, Clean p e.1 ∧ Clean p e.2) → PlainE es
  | [], _ => .nil
  | (k, v) :: es, he => .cons (plain_of_clean h k (he (k, v) (List.mem_cons_self ..)).1)
      (plain_of_clean h v (he (k, v) (List.mem_cons_self ..)).2)
      (plainE_of_clean h es (fun f hf => he f (List.mem_cons_of_mem _ hf)))
end

end Hiera
