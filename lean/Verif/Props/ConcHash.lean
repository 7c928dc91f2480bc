/- C45: data that are fetched by several goroutines at the same time. -/
import Verif.Model.ConcHash
import Mathlib.Algebra.BigOperators.Fin
import Mathlib.Data.Fintype.Basic
import Mathlib.Algebra.Order.BigOperators.Group.Finset

set_option autoImplicit false

namespace Hiera.ConcHash
open Hiera.Conc (upd)

variable {H : Type} {n : Nat} {loc : Fin n → Str} {again : Str → Bool}

/-- Has come to an end, one way or the other. -/
def Spec.Ended : PC H → Prop
  | .done _ => True
  | .failed => True
  | _ => False

/-- A schedule of `k` steps. -/
inductive Spec.Run (loc : Fin n → Str) (again : Str → Bool) (s : Sys H n) : Nat → Sys H n → Prop
  | nil : Run loc again s 0 s
  | cons {k : Nat} {t u : Sys H n} (i : Fin n) (out : Option H) : Run loc again s k t → t.step loc again i out = some u → Run loc again s (k + 1) u

open Spec

/-- What is so for a goroutine. -/
def Ok (loc : Fin n → Str) (again : Str → Bool) (s : Sys H n) (i : Fin n) : Prop :=
  match s.pc i with
  | .start => s.readers i = false ∧ s.writer ≠ some i
  | .reading => s.readers i = true ∧ s.writer ≠ some i
  | .want => s.readers i = false ∧ s.writer ≠ some i
  | .first => s.readers i = false ∧ s.writer = some i
  | .inside => (∀ j, s.readers j = false) ∧ s.writer = some i
  | .calling => (∀ j, s.readers j = false) ∧ s.writer = some i ∧ s.hashes (loc i) = none
  | .nested => (∀ j, s.readers j = false) ∧ s.writer = some i ∧ s.hashes (loc i) = none ∧ again (loc i) = true
  | .done h => s.readers i = false ∧ s.writer ≠ some i ∧ s.hashes (loc i) = some h
  | .failed => s.readers i = false ∧ s.writer ≠ some i

/-- What is so in every state that is reached. -/
structure Inv (loc : Fin n → Str) (again : Str → Bool) (s : Sys H n) : Prop where
  ok : ∀ i, Ok loc again s i
  zero : ∀ l, s.hashes l = none → s.runs l = 0
  one : ∀ l h, s.hashes l = some h → s.runs l = 1

theorem Inv.init : Inv loc again (Sys.init : Sys H n) where
  ok := fun _ => ⟨rfl, nofun⟩
  zero := fun _ _ => rfl
  one := fun _ _ h => nomatch h

theorem Inv.step {s t : Sys H n} {i : Fin n} {out : Option H} (h : Inv loc again s) (hs : s.step loc again i out = some t) : Inv loc again t := by
  obtain ⟨h1, h2, h3⟩ := h
  have hi := h1 i
  unfold Sys.step at hs
  unfold Ok at hi h1
  cases hp : s.pc i <;> rw [hp] at hs hi <;> simp only at hs hi
  all_goals (try (split at hs)) <;> (try (split at hs)) <;> simp only [Option.some.injEq, reduceCtorEq] at hs <;> subst hs <;>
    refine ⟨fun j => ?_, fun l hl => ?_, fun l h hl => ?_⟩
  all_goals first
    | (have hj := h1 j
       by_cases hij : j = i
       · subst hij; simp only [Ok, upd, ↓reduceIte] <;> grind
       · simp only [Ok, upd, hij, ↓reduceIte] <;> grind)
    | grind [upd]

theorem Inv.reach {s t : Sys H n} (h : Inv loc again s) (hr : Sys.Reach loc again s t) : Inv loc again t := by
  induction hr with
  | refl => exact h
  | step i out _ hs ih => exact ih.step hs

/-- C45: in every schedule of any number of lookups, the function succeeds at most once for a location. -/
theorem C45_once {s : Sys H n} (h : Sys.Reach loc again Sys.init s) (l : Str) : s.runs l ≤ 1 := by
  have hi := Inv.init.reach h
  cases hl : s.hashes l with
  | none => rw [hi.zero l hl]; exact Nat.zero_le _
  | some d => rw [hi.one l d hl]

/-- C45: once the function has succeeded for a location, no lookup of that location is about to call it again. -/
theorem C45_no_more {s t : Sys H n} (h : Sys.Reach loc again Sys.init s) (l : Str) (hl : s.runs l = 1) (hr : Sys.Reach loc again s t)
    (i : Fin n) (hi : loc i = l) : t.pc i ≠ .calling := by
  have up : s.runs l ≤ t.runs l := by
    clear hl
    induction hr with
    | refl => exact Nat.le_refl _
    | @step t u j out _ hs ih =>
      refine Nat.le_trans ih ?_
      unfold Sys.step at hs
      cases hp : t.pc j <;> rw [hp] at hs <;> simp only at hs
      all_goals (try (split at hs)) <;> (try (split at hs)) <;> simp only [Option.some.injEq, reduceCtorEq] at hs <;> subst hs <;>
        (simp only [upd] <;> (try split) <;> simp_all)
  intro hc
  have hv := (Inv.init.reach h).reach hr
  have h1 := hv.ok i
  unfold Ok at h1
  rw [hc] at h1
  have := hv.zero l (hi ▸ h1.2.2)
  omega

/-- C45: all lookups of a location that obtain data obtain the same. -/
theorem C45_same {s : Sys H n} (h : Sys.Reach loc again Sys.init s) (i j : Fin n) (hl : loc i = loc j) (c d : H)
    (hi : s.pc i = .done c) (hj : s.pc j = .done d) : c = d := by
  have hv := Inv.init.reach h
  have h1 := hv.ok i
  have h2 := hv.ok j
  unfold Ok at h1 h2
  rw [hi] at h1
  rw [hj] at h2
  simp only [hl] at h1
  exact Option.some.inj (h1.2.2.symm.trans h2.2.2)

/-- C45: the memory is not written while it is read: who is about to write is alone. -/
theorem C45_alone {s : Sys H n} (h : Sys.Reach loc again Sys.init s) (i j : Fin n) (hi : s.pc i = .calling) (hn : j ≠ i) :
    s.pc j ≠ .reading ∧ s.pc j ≠ .inside ∧ s.pc j ≠ .calling := by
  have hv := Inv.init.reach h
  have h1 := hv.ok i
  have h2 := hv.ok j
  unfold Ok at h1 h2
  rw [hi] at h1
  refine ⟨?_, ?_, ?_⟩ <;> intro hj <;> rw [hj] at h2 <;> simp only at h1 h2 <;> grind

/-- C45, partially: as long as some lookup has not come to an end, some lookup can do a step. That is so after panics of the
function, too. Missing: functions that look something up through the same provider, which block it (`C45_blocked`). -/
theorem C45_progress_partial {s : Sys H n} (ha : ∀ i, again (loc i) = false) (h : Sys.Reach loc again Sys.init s) (i : Fin n) (he : ¬ Ended (s.pc i)) (out : Option H) :
    ∃ j t, s.step loc again j out = some t := by
  have hv := Inv.init.reach h
  have go : ∀ j, (s.pc j = .reading ∨ s.pc j = .inside ∨ s.pc j = .calling) → ∃ t, s.step loc again j out = some t := by
    intro j hj
    unfold Sys.step
    rcases hj with hj | hj | hj <;> rw [hj] <;> simp only [ha, Bool.false_eq_true, ↓reduceIte] <;> split <;> exact ⟨_, rfl⟩
  by_cases hr : ∃ j, s.readers j = true
  · obtain ⟨j, hj⟩ := hr
    have h1 := hv.ok j
    unfold Ok at h1
    obtain ⟨t, ht⟩ := go j (by cases hp : s.pc j <;> rw [hp] at h1 <;> simp only at h1 <;> grind)
    exact ⟨j, t, ht⟩
  · cases hw : s.writer with
    | none =>
      have h1 := hv.ok i
      unfold Ok at h1
      refine ⟨i, ?_⟩
      unfold Sys.step
      cases hp : s.pc i <;> rw [hp] at h1 he <;> simp only [hw, Ended, not_true_eq_false] at h1 he ⊢
      case start => exact ⟨_, rfl⟩
      case reading => split <;> exact ⟨_, rfl⟩
      case want => exact ⟨_, rfl⟩
      all_goals exact nomatch h1
    | some j =>
      have h1 := hv.ok j
      unfold Ok at h1
      refine ⟨j, ?_⟩
      have hcase : s.pc j = .first ∨ s.pc j = .inside ∨ s.pc j = .calling := by
        cases hp : s.pc j <;> rw [hp] at h1 <;> simp only at h1 <;> grind
      rcases hcase with hp | hp
      · unfold Sys.step
        rw [hp]
        simp only [if_neg hr]
        exact ⟨_, rfl⟩
      · exact go j (.inr hp)

/-- How many steps a goroutine can still do. -/
def PC.left : PC H → Nat
  | .start => 7
  | .reading => 6
  | .want => 5
  | .first => 4
  | .inside => 3
  | .calling => 2
  | .nested => 1
  | .done _ => 0
  | .failed => 0

theorem step_left {s t : Sys H n} {i : Fin n} {out : Option H} (hs : s.step loc again i out = some t) :
    ∃ x, t.pc = upd s.pc i x ∧ x.left < (s.pc i).left := by
  unfold Sys.step at hs
  cases hp : s.pc i <;> rw [hp] at hs <;> simp only at hs
  all_goals (try (split at hs)) <;> (try (split at hs)) <;> simp only [Option.some.injEq, reduceCtorEq] at hs <;> subst hs <;>
    exact ⟨_, rfl, by simp [PC.left]⟩

/-- C45: every schedule comes to an end: it has at most seven steps for each lookup. -/
theorem C45_ends {k : Nat} {s : Sys H n} (h : Run loc again Sys.init k s) : k ≤ 7 * n := by
  have : k + ∑ i, (s.pc i).left ≤ 7 * n := by
    induction h with
    | nil => simp [Sys.init, PC.left, Nat.mul_comm]
    | @cons k t u i out _ hs ih =>
      obtain ⟨x, h1, h2⟩ := step_left hs
      have hlt : ∑ j, (u.pc j).left < ∑ j, (t.pc j).left := by
        refine Finset.sum_lt_sum (fun j _ => ?_) ⟨i, Finset.mem_univ _, ?_⟩
        · rw [h1]
          by_cases hj : j = i
          · subst hj; simp only [upd, ↓reduceIte]; exact Nat.le_of_lt h2
          · simp [upd, hj]
        · rw [h1]; simpa [upd] using h2
      omega
  omega

/-- C45 is false of functions that look something up through the same provider: once such a function has been called, no
lookup through the provider ever comes to an end but those that had done so before, whatever the schedule. The function is
called with the lock, and the nested lookup waits for it. -/
theorem C45_blocked {s t : Sys H n} (h : Sys.Reach loc again Sys.init s) (o : Fin n) (ho : s.pc o = .nested)
    (hr : Sys.Reach loc again s t) (i : Fin n) (he : Ended (t.pc i)) : Ended (s.pc i) := by
  have hf : t.pc o = .nested ∧ (Ended (t.pc i) → Ended (s.pc i)) := by
    clear he
    induction hr with
    | refl => exact ⟨ho, id⟩
    | @step t u j out hr' hs ih =>
      have hv := (Inv.init.reach h).reach hr'
      have h1 := hv.ok o
      have h2 := hv.ok j
      unfold Ok at h1 h2
      rw [ih.1] at h1
      simp only at h1
      unfold Sys.step at hs
      cases hp : t.pc j <;> rw [hp] at hs h2 <;> simp only at hs h2
      case start => rw [h1.2.1] at hs; exact nomatch hs
      case want => rw [h1.2.1] at hs; exact nomatch hs
      case nested => rw [h1.2.1] at hs; exact nomatch hs
      case done => exact nomatch hs
      case failed => exact nomatch hs
      case reading => rw [h1.1 j] at h2; exact nomatch h2.1
      all_goals
        have hjo : j = o := by grind
        subst hjo
        rw [ih.1] at hp
        exact nomatch hp
  exact hf.2 he

/-- Follows a schedule. -/
def Sys.follow (loc : Fin n → Str) (again : Str → Bool) (s : Sys H n) : List (Fin n × Option H) → Option (Sys H n)
  | [] => some s
  | (i, out) :: l => (s.step loc again i out).bind fun t => t.follow loc again l

theorem Sys.follow_reach {s t u : Sys H n} {l : List (Fin n × Option H)} (hr : Sys.Reach loc again u s) (h : s.follow loc again l = some t) :
    Sys.Reach loc again u t := by
  induction l generalizing s with
  | nil => exact Option.some.inj h ▸ hr
  | cons x l ih =>
    obtain ⟨i, out⟩ := x
    simp only [Sys.follow] at h
    cases hs : s.step loc again i out with
    | none => rw [hs] at h; exact nomatch h
    | some v => rw [hs] at h; exact ih (.step i out hr hs) h

/-- Not vacuous: three lookups, of which two find nothing at first. The function panics for the first and succeeds for the
second, and the third finds its data. -/
example : ∃ s : Sys Nat 3, Sys.Reach (fun _ => "a.yaml".toList) (fun _ => false) Sys.init s ∧ s.pc 0 = .failed ∧ s.pc 1 = .done 7 ∧ s.pc 2 = .done 7 := by
  have h : ((Sys.init : Sys Nat 3).follow (fun _ => "a.yaml".toList) (fun _ => false)
      [(0, none), (1, none), (0, none), (1, none), (0, none), (0, none), (0, none), (0, none), (1, none), (1, none), (1, none),
       (1, some 7), (2, none), (2, none)]).any
      (fun s => s.pc 0 = .failed ∧ s.pc 1 = .done 7 ∧ s.pc 2 = .done 7) = true := by decide +kernel
  obtain ⟨s, h1, h2⟩ := (Option.any_eq_true _ _).mp h
  exact ⟨s, Sys.follow_reach .refl h1, of_decide_eq_true h2⟩

/-- C45 is false: a single lookup that waits for itself. -/
theorem C45_false : ∃ s : Sys Nat 1, Sys.Reach (fun _ => "a.yaml".toList) (fun _ => true) Sys.init s ∧ ¬ Ended (s.pc 0) ∧
    ∀ out, s.step (fun _ => "a.yaml".toList) (fun _ => true) 0 out = none := by
  have h : ((Sys.init : Sys Nat 1).follow (fun _ => "a.yaml".toList) (fun _ => true)
      [(0, none), (0, none), (0, none), (0, none), (0, none), (0, none)]).any (fun s => s.pc 0 = .nested ∧ s.writer = some 0) = true := by
    decide +kernel
  obtain ⟨s, h1, h2⟩ := (Option.any_eq_true _ _).mp h
  obtain ⟨h3, h4⟩ := of_decide_eq_true h2
  refine ⟨s, Sys.follow_reach .refl h1, by rw [h3]; exact id, fun out => ?_⟩
  unfold Sys.step
  rw [h3]
  simp only [h4]

end Hiera.ConcHash
