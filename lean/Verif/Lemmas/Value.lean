/- Auxiliary lemmas about values: `Equals` is an equivalence on well-formed values, maps. -/
import Verif.Model.Value
import Mathlib.Data.List.Perm.Subperm

set_option autoImplicit false

namespace Hiera
open Value

/-! ### `Equals` is an equivalence relation on well-formed values -/

theorem WFList_iff : ∀ es : List Value, WFList es ↔ ∀ v ∈ es, WF v
  | [] => by simp [WFList]
  | v :: vs => by simp [WFList, WFList_iff vs]

theorem WFEntries_iff : ∀ es : List (Value × Value), WFEntries es ↔ ∀ e ∈ es, WF e.1 ∧ WF e.2
  | [] => by simp [WFEntries]
  | (k, v) :: es => by simp [WFEntries, WFEntries_iff es, and_assoc]

/-- Keys pairwise different. -/
def UniqueKeys (es : Entries) : Prop := es.Pairwise (fun e f => equals e.1 f.1 = false)

theorem WF_map {es : Entries} : WF (.map es) ↔ (∀ e ∈ es, WF e.1 ∧ WF e.2) ∧ UniqueKeys es := by
  simp [WF, WFEntries_iff, UniqueKeys]

theorem WF_arr {es : List Value} : WF (.arr es) ↔ ∀ v ∈ es, WF v := by simp [WF, WFList_iff]

theorem equalsMap_iff : ∀ es fs : Entries, equalsMap es fs = true ↔
    ∀ e ∈ es, ∃ f, fs.find? (fun x => equals e.1 x.1) = some f ∧ equals e.2 f.2 = true
  | [], fs => by simp [equalsMap]
  | (k, v) :: es, fs => by
    rw [equalsMap, Bool.and_eq_true, equalsMap_iff es fs]
    simp only [List.mem_cons, forall_eq_or_imp]
    apply and_congr_left'
    cases h : fs.find? (fun e => equals k e.1) <;> simp

/-- `Equals` behaves like an equivalence on values of size below `n`. -/
def EqvBelow (n : Nat) : Prop :=
  ∀ a b c : Value, sizeOf a < n → sizeOf b < n → sizeOf c < n → WF a → WF b → WF c →
    equals a a = true ∧ (equals a b = true → equals b a = true) ∧
      (equals a b = true → equals b c = true → equals a c = true)

theorem pairwise_or {α : Type} {R : α → α → Prop} {l : List α} (h : l.Pairwise R) {a b : α}
    (ha : a ∈ l) (hb : b ∈ l) (hne : a ≠ b) : R a b ∨ R b a := by
  induction h with
  | nil => simp at ha
  | cons hx _ ih =>
    rcases List.mem_cons.1 ha with rfl | ha'
    · rcases List.mem_cons.1 hb with rfl | hb'
      · exact absurd rfl hne
      · exact .inl (hx _ hb')
    · rcases List.mem_cons.1 hb with rfl | hb'
      · exact .inr (hx _ ha')
      · exact ih ha' hb'

/-- In a map with unique keys the entry found for `k` is any entry whose key equals `k`. -/
theorem find_unique {es : Entries} (hu : UniqueKeys es) {k : Value} {f : Value × Value} (hf : f ∈ es)
    (hk : equals k f.1 = true)
    (hsym : ∀ e ∈ es, equals k e.1 = true → equals e.1 k = true)
    (htr : ∀ e ∈ es, ∀ g ∈ es, equals e.1 k = true → equals k g.1 = true → equals e.1 g.1 = true) :
    es.find? (fun e => equals k e.1) = some f := by
  cases h : es.find? (fun e => equals k e.1) with
  | none => exact absurd hk (by simpa using List.find?_eq_none.1 h f hf)
  | some g =>
    have hgk : equals k g.1 = true := by simpa using List.find?_some h
    have hg := List.mem_of_find?_eq_some h
    by_cases hne : f = g
    · rw [hne]
    · exfalso
      rcases pairwise_or hu hf hg hne with h' | h'
      · simp [htr f hf g hg (hsym f hf hk) hgk] at h'
      · simp [htr g hg f hf (hsym g hg hgk) hk] at h'

theorem sizeOf_arr_mem {es : List Value} {v : Value} (h : v ∈ es) : sizeOf v < sizeOf (Value.arr es) := by
  have := List.sizeOf_lt_of_mem h; simp; omega

theorem sizeOf_map_mem {es : Entries} {e : Value × Value} (h : e ∈ es) :
    sizeOf e.1 < sizeOf (Value.map es) ∧ sizeOf e.2 < sizeOf (Value.map es) := by
  have := List.sizeOf_lt_of_mem h
  obtain ⟨k, v⟩ := e
  simp at this ⊢; omega

theorem equalsList_refl : ∀ es : List Value, (∀ v ∈ es, equals v v = true) → equalsList es es = true
  | [], _ => rfl
  | v :: vs, h => by simp [equalsList, h, equalsList_refl vs (fun x hx => h x (by simp [hx]))]

theorem equalsList_symm : ∀ as bs : List Value,
    (∀ a ∈ as, ∀ b ∈ bs, equals a b = true → equals b a = true) → equalsList as bs = true → equalsList bs as = true
  | [], [], _, _ => rfl
  | [], _ :: _, _, h => by simp [equalsList] at h
  | _ :: _, [], _, h => by simp [equalsList] at h
  | a :: as, b :: bs, hs, h => by
    simp only [equalsList, Bool.and_eq_true] at h ⊢
    exact ⟨hs a (by simp) b (by simp) h.1, equalsList_symm as bs (fun x hx y hy => hs x (by simp [hx]) y (by simp [hy])) h.2⟩

theorem equalsList_trans : ∀ as bs cs : List Value,
    (∀ a ∈ as, ∀ b ∈ bs, ∀ c ∈ cs, equals a b = true → equals b c = true → equals a c = true) →
    equalsList as bs = true → equalsList bs cs = true → equalsList as cs = true
  | [], [], cs, _, _, h => h
  | [], _ :: _, _, _, h, _ => by simp [equalsList] at h
  | _ :: _, [], _, _, h, _ => by simp [equalsList] at h
  | _ :: _, _ :: _, [], _, _, h => by simp [equalsList] at h
  | a :: as, b :: bs, c :: cs, ht, h, h' => by
    simp only [equalsList, Bool.and_eq_true] at h h' ⊢
    exact ⟨ht a (by simp) b (by simp) c (by simp) h.1 h'.1,
      equalsList_trans as bs cs (fun x hx y hy z hz => ht x (by simp [hx]) y (by simp [hy]) z (by simp [hz])) h.2 h'.2⟩

theorem eqvBelow : ∀ n, EqvBelow n
  | 0 => fun a _ _ ha => absurd ha (by omega)
  | n + 1 => by
    have ih := eqvBelow n
    -- the components, for values whose parts are small
    have R : ∀ a, sizeOf a < n → WF a → equals a a = true := fun a h w => (ih a a a h h h w w w).1
    have S : ∀ a b, sizeOf a < n → sizeOf b < n → WF a → WF b → equals a b = true → equals b a = true :=
      fun a b h h' w w' => (ih a b a h h' h w w' w).2.1
    have T : ∀ a b c, sizeOf a < n → sizeOf b < n → sizeOf c < n → WF a → WF b → WF c →
        equals a b = true → equals b c = true → equals a c = true :=
      fun a b c h h' h'' w w' w'' => (ih a b c h h' h'' w w' w'').2.2
    intro a b c ha hb hc wa wb wc
    refine ⟨?_, ?_, ?_⟩
    · cases a with
      | arr es =>
        rw [equals]
        refine equalsList_refl es fun v hv => R v ?_ (WF_arr.1 wa v hv)
        have := sizeOf_arr_mem hv; omega
      | map es =>
        obtain ⟨we, hu⟩ := WF_map.1 wa
        have sz : ∀ e ∈ es, sizeOf e.1 < n ∧ sizeOf e.2 < n := fun e he => by
          have := sizeOf_map_mem he; omega
        simp only [equals, BEq.rfl, Bool.true_and]
        rw [equalsMap_iff]
        intro e he
        refine ⟨e, find_unique hu he (R _ (sz e he).1 (we e he).1) (fun g hg => S _ _ (sz e he).1 (sz g hg).1 (we e he).1 (we g hg).1) ?_, R _ (sz e he).2 (we e he).2⟩
        exact fun g hg g' hg' => T _ _ _ (sz g hg).1 (sz e he).1 (sz g' hg').1 (we g hg).1 (we e he).1 (we g' hg').1
      | sensitive v => rw [equals]; exact R v (by simp at ha; omega) (by simpa [WF] using wa)
      | _ => simp [equals]
    · intro h
      cases a with
      | arr es =>
        cases b with
        | arr fs =>
          rw [equals] at h ⊢
          refine equalsList_symm es fs (fun x hx y hy => S x y ?_ ?_ (WF_arr.1 wa x hx) (WF_arr.1 wb y hy)) h
          · have := sizeOf_arr_mem hx; omega
          · have := sizeOf_arr_mem hy; omega
        | _ => simp [equals] at h
      | map es =>
        cases b with
        | map fs =>
          obtain ⟨we, hu⟩ := WF_map.1 wa
          obtain ⟨wf, hu'⟩ := WF_map.1 wb
          have sz : ∀ e ∈ es, sizeOf e.1 < n ∧ sizeOf e.2 < n := fun e he => by
            have := sizeOf_map_mem he; omega
          have sz' : ∀ e ∈ fs, sizeOf e.1 < n ∧ sizeOf e.2 < n := fun e he => by
            have := sizeOf_map_mem he; omega
          simp only [equals, Bool.and_eq_true, beq_iff_eq] at h ⊢
          obtain ⟨hlen, hm⟩ := h
          rw [equalsMap_iff] at hm
          refine ⟨hlen.symm, ?_⟩
          rw [equalsMap_iff]
          -- the matching entry
          let g : Value × Value → Value × Value := fun e => (fs.find? (fun x => equals e.1 x.1)).getD e
          have hg : ∀ e ∈ es, g e ∈ fs ∧ equals e.1 (g e).1 = true ∧ equals e.2 (g e).2 = true := by
            intro e he
            obtain ⟨f, hf, hv⟩ := hm e he
            have : g e = f := by simp [g, hf]
            rw [this]
            exact ⟨List.mem_of_find?_eq_some hf, by simpa using List.find?_some hf, hv⟩
          have hnd : (es.map g).Nodup := by
            rw [List.Nodup, List.pairwise_map]
            refine List.Pairwise.imp_of_mem ?_ hu
            intro e e' he he' hne heq
            obtain ⟨m1, k1, _⟩ := hg e he
            obtain ⟨m2, k2, _⟩ := hg e' he'
            rw [← heq] at k2
            have k3 := S _ _ (sz e' he').1 (sz' _ m1).1 (we e' he').1 (wf _ m1).1 k2
            have := T _ _ _ (sz e he).1 (sz' _ m1).1 (sz e' he').1 (we e he).1 (wf _ m1).1 (we e' he').1 k1 k3
            simp [this] at hne
          have hsub : es.map g ⊆ fs := by
            intro x hx
            obtain ⟨e, he, rfl⟩ := List.mem_map.1 hx
            exact (hg e he).1
          have hperm : (es.map g).Perm fs :=
            (List.subperm_of_subset hnd hsub).perm_of_length_le (by simp [hlen])
          intro f hf
          obtain ⟨e, he, rfl⟩ := List.mem_map.1 (hperm.mem_iff.2 hf)
          obtain ⟨m1, k1, v1⟩ := hg e he
          have k1' := S _ _ (sz e he).1 (sz' _ m1).1 (we e he).1 (wf _ m1).1 k1
          refine ⟨e, find_unique hu he k1' (fun x hx => S _ _ (sz' _ m1).1 (sz x hx).1 (wf _ m1).1 (we x hx).1) ?_,
            S _ _ (sz e he).2 (sz' _ m1).2 (we e he).2 (wf _ m1).2 v1⟩
          exact fun x hx x' hx' => T _ _ _ (sz x hx).1 (sz' _ m1).1 (sz x' hx').1 (we x hx).1 (wf _ m1).1 (we x' hx').1
        | _ => simp [equals] at h
      | sensitive v =>
        cases b with
        | sensitive w =>
          rw [equals] at h ⊢
          exact S v w (by simp at ha; omega) (by simp at hb; omega) (by simpa [WF] using wa) (by simpa [WF] using wb) h
        | _ => simp [equals] at h
      | _ => cases b <;> simp_all [equals]
    · intro h h'
      cases a with
      | arr es =>
        cases b with
        | arr fs =>
          cases c with
          | arr gs =>
            rw [equals] at h h' ⊢
            refine equalsList_trans es fs gs (fun x hx y hy z hz => T x y z ?_ ?_ ?_ (WF_arr.1 wa x hx) (WF_arr.1 wb y hy) (WF_arr.1 wc z hz)) h h'
            · have := sizeOf_arr_mem hx; omega
            · have := sizeOf_arr_mem hy; omega
            · have := sizeOf_arr_mem hz; omega
          | _ => simp [equals] at h'
        | _ => simp [equals] at h
      | map es =>
        cases b with
        | map fs =>
          cases c with
          | map gs =>
            obtain ⟨we, _⟩ := WF_map.1 wa
            obtain ⟨wf, _⟩ := WF_map.1 wb
            obtain ⟨wg, hu⟩ := WF_map.1 wc
            have sz : ∀ e ∈ es, sizeOf e.1 < n ∧ sizeOf e.2 < n := fun e he => by
              have := sizeOf_map_mem he; omega
            have sz' : ∀ e ∈ fs, sizeOf e.1 < n ∧ sizeOf e.2 < n := fun e he => by
              have := sizeOf_map_mem he; omega
            have sz'' : ∀ e ∈ gs, sizeOf e.1 < n ∧ sizeOf e.2 < n := fun e he => by
              have := sizeOf_map_mem he; omega
            simp only [equals, Bool.and_eq_true, beq_iff_eq] at h h' ⊢
            refine ⟨h.1.trans h'.1, ?_⟩
            have hm := (equalsMap_iff _ _).1 h.2
            have hm' := (equalsMap_iff _ _).1 h'.2
            rw [equalsMap_iff]
            intro e he
            obtain ⟨f, hf, hv⟩ := hm e he
            have mf := List.mem_of_find?_eq_some hf
            have kf : equals e.1 f.1 = true := by simpa using List.find?_some hf
            obtain ⟨g, hg, hw⟩ := hm' f mf
            have mg := List.mem_of_find?_eq_some hg
            have kg : equals f.1 g.1 = true := by simpa using List.find?_some hg
            have keg := T _ _ _ (sz e he).1 (sz' f mf).1 (sz'' g mg).1 (we e he).1 (wf f mf).1 (wg g mg).1 kf kg
            refine ⟨g, find_unique hu mg keg (fun x hx => S _ _ (sz e he).1 (sz'' x hx).1 (we e he).1 (wg x hx).1) ?_,
              T _ _ _ (sz e he).2 (sz' f mf).2 (sz'' g mg).2 (we e he).2 (wf f mf).2 (wg g mg).2 hv hw⟩
            exact fun x hx x' hx' => T _ _ _ (sz'' x hx).1 (sz e he).1 (sz'' x' hx').1 (wg x hx).1 (we e he).1 (wg x' hx').1
          | _ => simp [equals] at h'
        | _ => simp [equals] at h
      | sensitive v =>
        cases b with
        | sensitive w =>
          cases c with
          | sensitive x =>
            rw [equals] at h h' ⊢
            exact T v w x (by simp at ha; omega) (by simp at hb; omega) (by simp at hc; omega)
              (by simpa [WF] using wa) (by simpa [WF] using wb) (by simpa [WF] using wc) h h'
          | _ => simp [equals] at h'
        | _ => simp [equals] at h
      | _ => cases b <;> simp_all [equals]

theorem equals_refl {a : Value} (h : WF a) : equals a a = true :=
  (eqvBelow (sizeOf a + 1) a a a (by omega) (by omega) (by omega) h h h).1

theorem equals_symm {a b : Value} (ha : WF a) (hb : WF b) (h : equals a b = true) : equals b a = true :=
  (eqvBelow (sizeOf a + sizeOf b + 1) a b a (by omega) (by omega) (by omega) ha hb ha).2.1 h

theorem equals_trans {a b c : Value} (ha : WF a) (hb : WF b) (hc : WF c) (h : equals a b = true)
    (h' : equals b c = true) : equals a c = true :=
  (eqvBelow (sizeOf a + sizeOf b + sizeOf c + 1) a b c (by omega) (by omega) (by omega) ha hb hc).2.2 h h'

theorem equals_comm {a b : Value} (ha : WF a) (hb : WF b) : equals a b = equals b a := by
  cases h : equals a b <;> cases h' : equals b a <;> first | rfl | skip
  · simp [equals_symm hb ha h'] at h
  · simp [equals_symm ha hb h] at h'

end Hiera
