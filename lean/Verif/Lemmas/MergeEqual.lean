/- Merging equal values gives equal values. -/
import Verif.Props.Merge

set_option autoImplicit false

namespace Hiera
open Spec Value

theorem entries_length_le (ps qs : Entries) (hp : WF (.map ps)) (hq : WF (.map qs))
    (h : ∀ k, WF k → Entries.get qs k = none → Entries.get ps k = none) : ps.length ≤ qs.length := by
  -- map each entry of `ps` to the entry of `qs` with that key
  have wq := (WF_map.1 hq).1
  have inj : ∀ (ps : Entries) (qs : Entries), (∀ e ∈ ps, WF e.1) → (∀ e ∈ qs, WF e.1) →
      ps.Pairwise (fun e f => equals e.1 f.1 = false) →
      (∀ e ∈ ps, ∃ f ∈ qs, equals e.1 f.1 = true) → ps.length ≤ qs.length := by
    intro ps
    induction ps with
    | nil => intro qs _ _ _ _; simp
    | cons e ps ih =>
      intro qs w1 w2 hp h
      obtain ⟨f, hf, hef⟩ := h e (by simp)
      obtain ⟨q1, q2, rfl⟩ := List.append_of_mem hf
      obtain ⟨p1, p2⟩ := List.pairwise_cons.1 hp
      have := ih (q1 ++ q2) (fun e he => w1 e (by simp [he]))
        (fun e he => w2 e (by
          rcases List.mem_append.1 he with h | h <;> simp [h])) p2 (by
          intro e' he'
          obtain ⟨f', hf', hef'⟩ := h e' (by simp [he'])
          refine ⟨f', ?_, hef'⟩
          rcases List.mem_append.1 hf' with h | h
          · simp [h]
          · rcases List.mem_cons.1 h with rfl | h
            · exfalso
              have we := w1 e (by simp)
              have we' := w1 e' (by simp [he'])
              have wf := w2 f' (by simp)
              have := equals_trans we wf we' hef (equals_symm we' wf hef')
              rw [p1 e' he'] at this; simp at this
            · simp [h])
      simp only [List.length_append, List.length_cons] at this ⊢
      omega
  refine inj ps qs (fun e he => ((WF_map.1 hp).1 e he).1) (fun e he => (wq e he).1) (WF_map.1 hp).2 ?_
  intro e he
  have we := (WF_map.1 hp).1 e he
  cases hg : Entries.get qs e.1 with
  | none =>
    have h0 := h e.1 we.1 hg
    rw [Entries.get_of_mem hp he we.1 (equals_refl we.1)] at h0
    cases h0
  | some v =>
    obtain ⟨f, hf, he', _⟩ := Entries.get_mem hg
    exact ⟨f, hf, he'⟩

theorem maps_equal {rs rs' : Entries} (hr : WF (.map rs)) (hr' : WF (.map rs'))
    (h : ∀ k, WF k → (Entries.get rs k = none ↔ Entries.get rs' k = none))
    (h' : ∀ k v w, WF k → Entries.get rs k = some v → Entries.get rs' k = some w → equals v w = true) :
    equals (.map rs) (.map rs') = true := by
  rw [Entries.equals_map_iff hr hr']
  refine ⟨Nat.le_antisymm (entries_length_le _ _ hr hr' (fun k hk => (h k hk).2)) (entries_length_le _ _ hr' hr (fun k hk => (h k hk).1)), ?_⟩
  intro k v hk hg
  cases hg' : Entries.get rs' k with
  | none => rw [(h k hk).2 hg'] at hg; cases hg
  | some w => exact ⟨w, rfl, h' k v w hk hg hg'⟩

theorem uniqueFrom_congr : ∀ {vs ws : List Value} {seen seen' : List Value}, (∀ v ∈ vs, WF v) → (∀ v ∈ ws, WF v) →
    (∀ v ∈ seen, WF v) → (∀ v ∈ seen', WF v) → equalsList vs ws = true → equalsList seen seen' = true →
    equalsList (uniqueFrom seen vs) (uniqueFrom seen' ws) = true
  | [], [], _, _, _, _, _, _, _, _ => by simp [uniqueFrom, equalsList]
  | [], _ :: _, _, _, _, _, _, _, h, _ => by simp [equalsList] at h
  | _ :: _, [], _, _, _, _, _, _, h, _ => by simp [equalsList] at h
  | v :: vs, w :: ws, seen, seen', hv, hw, hs, hs', h, h' => by
    rw [equalsList, Bool.and_eq_true] at h
    have any : ∀ {as bs : List Value}, (∀ v ∈ as, WF v) → (∀ v ∈ bs, WF v) → equalsList as bs = true →
        as.any (fun x => equals x v) = bs.any (fun x => equals x w) := by
      intro as
      induction as with
      | nil =>
        intro bs _ _ h
        cases bs with
        | nil => rfl
        | cons _ _ => simp [equalsList] at h
      | cons a as ih =>
        intro bs ha hb e
        cases bs with
        | nil => simp [equalsList] at e
        | cons b bs =>
          rw [equalsList, Bool.and_eq_true] at e
          rw [List.any_cons, List.any_cons, ih (fun x hx => ha x (by simp [hx])) (fun x hx => hb x (by simp [hx])) e.2,
            equals_congr_left (ha a (by simp)) (hb b (by simp)) (hv v (by simp)) e.1,
            equals_congr_right (hv v (by simp)) (hw w (by simp)) (hb b (by simp)) h.1]
    have app : ∀ {as bs : List Value} {x y : Value}, equalsList as bs = true → equals x y = true → equalsList (as ++ [x]) (bs ++ [y]) = true := by
      intro as
      induction as with
      | nil =>
        intro bs x y e e'
        cases bs with
        | nil => simp [equalsList, e']
        | cons _ _ => simp [equalsList] at e
      | cons a as ih =>
        intro bs x y e e'
        cases bs with
        | nil => simp [equalsList] at e
        | cons b bs =>
          rw [equalsList, Bool.and_eq_true] at e
          rw [List.cons_append, List.cons_append, equalsList, e.1, ih e.2 e']
          rfl
    rw [uniqueFrom, uniqueFrom, any hs hs' h']
    have hv' : ∀ x ∈ vs, WF x := fun x hx => hv x (by simp [hx])
    have hw' : ∀ x ∈ ws, WF x := fun x hx => hw x (by simp [hx])
    split
    · exact uniqueFrom_congr hv' hw' hs hs' h.2 h'
    · rw [equalsList, h.1, uniqueFrom_congr hv' hw' (fun x hx => ?_) (fun x hx => ?_) h.2 (app h' h.1)]
      · rfl
      · rcases List.mem_append.1 hx with hx | hx
        · exact hs x hx
        · rw [List.mem_singleton.1 hx]; exact hv v (by simp)
      · rcases List.mem_append.1 hx with hx | hx
        · exact hs' x hx
        · rw [List.mem_singleton.1 hx]; exact hw w (by simp)

theorem equals_is_map {as : Entries} {a : Value} (h : equals (.map as) a = true) : ∃ bs, a = .map bs := by
  cases a with
  | map bs => exact ⟨bs, rfl⟩
  | _ => simp [equals] at h

theorem equals_is_arr {as : List Value} {a : Value} (h : equals (.arr as) a = true) : ∃ bs, a = .arr bs ∧ equalsList as bs = true := by
  cases a with
  | arr bs => rw [equals] at h; exact ⟨bs, rfl, h⟩
  | _ => simp [equals] at h

/-- Both are absent, or both are there and equal. -/
def EqO : Option Value → Option Value → Prop
  | none, none => True
  | some a, some b => equals a b = true
  | _, _ => False

theorem EqO.some_left {x : Value} {b : Option Value} (h : EqO (some x) b) : ∃ y, b = some y ∧ equals x y = true := by
  cases b with
  | none => exact absurd h (by simp [EqO])
  | some y => exact ⟨y, rfl, h⟩

theorem EqO.none_iff {a b : Option Value} (h : EqO a b) : a = none ↔ b = none := by
  cases a <;> cases b <;> simp_all [EqO]

theorem get_equal {as bs : Entries} (ha : WF (.map as)) (hb : WF (.map bs)) (e : equals (.map as) (.map bs) = true) {k : Value} (hk : WF k) :
    EqO (Entries.get as k) (Entries.get bs k) := by
  have e1 := ((Entries.equals_map_iff ha hb).1 e).2
  have e2 := ((Entries.equals_map_iff hb ha).1 (equals_symm ha hb e)).2
  cases hg : Entries.get as k with
  | none =>
    cases hg' : Entries.get bs k with
    | none => trivial
    | some v => obtain ⟨w, hw, _⟩ := e2 k v hk hg'; rw [hw] at hg; cases hg
  | some v =>
    obtain ⟨w, hw, hq⟩ := e1 k v hk hg
    rw [hw]
    exact hq

theorem equalsList_append {as as' bs bs' : List Value} (h : equalsList as as' = true) (hb : equalsList bs bs' = true) :
    equalsList (as ++ bs) (as' ++ bs') = true := by
  induction as generalizing as' with
  | nil =>
    cases as' with
    | nil => exact hb
    | cons _ _ => simp [equalsList] at h
  | cons a as ih =>
    cases as' with
    | nil => simp [equalsList] at h
    | cons b as' =>
      rw [equalsList, Bool.and_eq_true] at h
      rw [List.cons_append, List.cons_append, equalsList, h.1, ih h.2]
      rfl

/-- Deep merges of equal values are equal. -/
theorem deepMerged_congr2 {a b r : Value} (h : DeepMerged a b r) : ∀ {a' b' r' : Value}, WF a → WF a' → WF b → WF b' → WF r → WF r' →
    equals a a' = true → equals b b' = true → DeepMerged a' b' r' → equals r r' = true := by
  induction h with
  | @maps as bs rs k1 k2 k3 k4 ih =>
    intro a' b' r' ha ha' hb hb' hr hr' e f h'
    obtain ⟨as', rfl⟩ := equals_is_map e
    obtain ⟨bs', rfl⟩ := equals_is_map f
    cases h' with
    | other h => exact absurd trivial h
    | @maps _ _ rs' l1 l2 l3 l4 =>
      refine maps_equal hr hr' (fun k hk => ?_) (fun k v w hk hv hw => ?_)
      · rw [k1 k hk, l1 k hk, (get_equal ha ha' e hk).none_iff, (get_equal hb hb' f hk).none_iff]
      · have qa := get_equal ha ha' e hk
        have qb := get_equal hb hb' f hk
        cases ga : Entries.get as k with
        | none =>
          have ga' := qa.none_iff.1 ga
          cases gb : Entries.get bs k with
          | none => rw [(k1 k hk).2 ⟨ga, gb⟩] at hv; cases hv
          | some y =>
            rw [gb] at qb
            obtain ⟨y', gb', ey⟩ := qb.some_left
            have h1 := k3 k y hk ga gb
            have h2 := l3 k y' hk ga' gb'
            rw [hv] at h1; rw [hw] at h2
            cases h1; cases h2
            exact ey
        | some x =>
          rw [ga] at qa
          obtain ⟨x', ga', ex⟩ := qa.some_left
          cases gb : Entries.get bs k with
          | none =>
            have gb' := qb.none_iff.1 gb
            have h1 := k2 k x hk ga gb
            have h2 := l2 k x' hk ga' gb'
            rw [hv] at h1; rw [hw] at h2
            cases h1; cases h2
            exact ex
          | some y =>
            rw [gb] at qb
            obtain ⟨y', gb', ey⟩ := qb.some_left
            exact ih k x y v hk ga gb hv (Entries.WF_of_get ha ga) (Entries.WF_of_get ha' ga') (Entries.WF_of_get hb gb)
              (Entries.WF_of_get hb' gb') (Entries.WF_of_get hr hv) (Entries.WF_of_get hr' hw) ex ey (l4 k x' y' w hk ga' gb' hw)
  | @arrays as bs rs ne1 ne2 nub =>
    intro a' b' r' ha ha' hb hb' hr hr' e f h'
    obtain ⟨as', rfl, el⟩ := equals_is_arr e
    obtain ⟨bs', rfl, fl⟩ := equals_is_arr f
    have wapp : ∀ {xs ys : List Value}, WF (.arr xs) → WF (.arr ys) → ∀ v ∈ xs ++ ys, WF v := fun hx hy v hv => by
      rcases List.mem_append.1 hv with h | h
      · exact WF_arr.1 hx v h
      · exact WF_arr.1 hy v h
    cases h' with
    | other h => exact absurd trivial h
    | arrays _ _ nub' =>
      rw [isNub_eq (wapp ha hb) nub, isNub_eq (wapp ha' hb') nub', equals]
      exact uniqueFrom_congr (wapp ha hb) (wapp ha' hb') (by simp) (by simp) (equalsList_append el fl) rfl
    | emptyLeft =>
      have := equalsList_length el
      cases as with
      | nil => exact absurd rfl ne1
      | cons _ _ => simp at this
    | emptyRight =>
      have := equalsList_length fl
      cases bs with
      | nil => exact absurd rfl ne2
      | cons _ _ => simp at this
  | @emptyLeft bs =>
    intro a' b' r' ha ha' hb hb' hr hr' e f h'
    obtain ⟨as', rfl, el⟩ := equals_is_arr e
    have : as' = [] := List.length_eq_zero_iff.1 (equalsList_length el).symm
    subst this
    obtain ⟨bs', rfl, fl⟩ := equals_is_arr f
    cases h' with
    | other h => exact absurd trivial h
    | arrays h _ _ => exact absurd rfl h
    | emptyLeft => exact f
    | emptyRight => exact f
  | @emptyRight as =>
    intro a' b' r' ha ha' hb hb' hr hr' e f h'
    obtain ⟨as', rfl, el⟩ := equals_is_arr e
    obtain ⟨bs', rfl, fl⟩ := equals_is_arr f
    have : bs' = [] := List.length_eq_zero_iff.1 (equalsList_length fl).symm
    subst this
    cases h' with
    | other h => exact absurd trivial h
    | arrays _ h _ => exact absurd rfl h
    | emptyLeft => exact e
    | emptyRight => exact e
  | @other a b hn =>
    intro a' b' r' ha ha' hb hb' hr hr' e f h'
    have e' := equals_symm ha ha' e
    have f' := equals_symm hb hb' f
    cases h' with
    | other _ => exact e
    | maps => obtain ⟨_, rfl⟩ := equals_is_map e'; obtain ⟨_, rfl⟩ := equals_is_map f'; exact absurd trivial hn
    | arrays => obtain ⟨_, rfl, _⟩ := equals_is_arr e'; obtain ⟨_, rfl, _⟩ := equals_is_arr f'; exact absurd trivial hn
    | emptyLeft => obtain ⟨_, rfl, _⟩ := equals_is_arr e'; obtain ⟨_, rfl, _⟩ := equals_is_arr f'; exact absurd trivial hn
    | emptyRight => obtain ⟨_, rfl, _⟩ := equals_is_arr e'; obtain ⟨_, rfl, _⟩ := equals_is_arr f'; exact absurd trivial hn

theorem deepMerged_congr {a b r : Value} (h : DeepMerged a b r) {a' r' : Value} (ha : WF a) (ha' : WF a') (hb : WF b) (hr : WF r)
    (hr' : WF r') (e : equals a a' = true) (h' : DeepMerged a' b r') : equals r r' = true :=
  deepMerged_congr2 h ha ha' hb hb hr hr' e (equals_refl hb) h'

end Hiera
