/- C43 and C44: configurations that are loaded by several goroutines at the same time. -/
import Verif.Model.Conc
import Mathlib.Algebra.BigOperators.Fin
import Mathlib.Data.Fintype.Basic
import Mathlib.Algebra.Order.BigOperators.Group.Finset

set_option autoImplicit false

namespace Hiera.Conc

variable {C : Type} {n : Nat} {path : Fin n → Str}

/-- Has come to an end, one way or the other. -/
def Spec.Ended : PC C n → Prop
  | .done _ => True
  | .failed => True
  | .crashed => True
  | _ => False

/-- A schedule of `k` steps. -/
inductive Spec.Run (path : Fin n → Str) (s : Sys C n) : Nat → Sys C n → Prop
  | nil : Run path s 0 s
  | cons {k : Nat} {t u : Sys C n} (i : Fin n) (out : Option C) : Run path s k t → t.step path i out = some u → Run path s (k + 1) u

open Spec

/-- What is so for a goroutine. -/
def Ok (path : Fin n → Str) (s : Sys C n) (i : Fin n) : Prop :=
  match s.pc i with
  | .start => s.held i = false
  | .locked => s.held i = true
  | .owner => s.lock (path i) = some i ∧ s.conf (path i) = none ∧ s.runs (path i) = 0 ∧ s.held i = true
  | .loaded _ => s.lock (path i) = some i ∧ s.conf (path i) = none ∧ s.runs (path i) = 1 ∧ s.held i = true
  | .stored c => s.lock (path i) = some i ∧ s.conf (path i) = some c ∧ s.runs (path i) = 1 ∧ s.held i = true
  | .failed => s.lock (path i) = some i ∧ s.conf (path i) = none ∧ s.runs (path i) = 1 ∧ s.held i = true
  | .waiting o => s.lock (path i) = some o ∧ s.held i = false
  | .reading o => s.lock (path i) = some o ∧ (∃ c, s.conf (path i) = some c) ∧ s.held i = false
  | .done c => s.conf (path i) = some c ∧ s.held i = false
  | .crashed => False

/-- Has made the lock that is in the cache. -/
def PC.owns : PC C n → Prop
  | .owner => True
  | .loaded _ => True
  | .stored _ => True
  | .failed => True
  | .done _ => True
  | _ => False

/-- What is so in every state that is reached. -/
structure Inv (path : Fin n → Str) (s : Sys C n) : Prop where
  ok : ∀ i, Ok path s i
  free : ∀ p, s.lock p = none → s.conf p = none ∧ s.runs p = 0
  taken : ∀ p o, s.lock p = some o → path o = p ∧ (s.pc o).owns
  once : ∀ p c, s.conf p = some c → s.runs p = 1

theorem Inv.init : Inv path (Sys.init : Sys C n) where
  ok := fun _ => rfl
  free := fun _ _ => ⟨rfl, rfl⟩
  taken := fun _ _ h => nomatch h
  once := fun _ _ h => nomatch h

theorem Inv.step {s t : Sys C n} {i : Fin n} {out : Option C} (h : Inv path s) (hs : s.step path i out = some t) : Inv path t := by
  obtain ⟨h1, h2, h3, h4⟩ := h
  have hi := h1 i
  unfold Sys.step at hs
  unfold Ok at hi h1
  cases hp : s.pc i <;> rw [hp] at hs hi <;> simp only at hs hi
  all_goals (try (split at hs)) <;> simp only [Option.some.injEq, reduceCtorEq] at hs <;> subst hs <;>
    refine ⟨fun j => ?_, fun p hp => ?_, fun p o ho => ?_, fun p c hc => ?_⟩
  all_goals first
    | (have hj := h1 j
       by_cases hij : j = i
       · subst hij; simp only [Ok, upd, ↓reduceIte] <;> grind
       · simp only [Ok, upd, hij, ↓reduceIte] <;> grind)
    | grind [upd, PC.owns]
    | skip
  case waiting.isFalse.refine_1 o hh =>
    have hj := h1 j
    by_cases hij : j = i
    · subst hij
      have ho := h1 o
      have hw := h3 _ o hi.1
      simp only [Ok, upd, ↓reduceIte]
      refine ⟨hi.1, ?_, hi.2⟩
      cases hpo : s.pc o <;> rw [hpo] at ho hw <;> simp only [PC.owns, and_false] at ho hw
      all_goals grind
    · simp only [Ok, upd, hij, ↓reduceIte] <;> grind

theorem Inv.reach {s t : Sys C n} (h : Inv path s) (hr : Sys.Reach path s t) : Inv path t := by
  induction hr with
  | refl => exact h
  | step i out _ hs ih => exact ih.step hs

/-- C43: in every schedule of any number of invocations, `config.New` is called at most once for a path. -/
theorem C43_once {s : Sys C n} (h : Sys.Reach path Sys.init s) (p : Str) : s.runs p ≤ 1 := by
  have hi := Inv.init.reach h
  cases hl : s.lock p with
  | none => rw [(hi.free p hl).2]; exact Nat.zero_le _
  | some o =>
    obtain ⟨h1, h2⟩ := hi.taken p o hl
    have ho := hi.ok o
    unfold Ok at ho
    cases hp : s.pc o <;> rw [hp] at h2 ho <;> simp only [PC.owns] at h2 <;> simp only [h1] at ho
    case done c => rw [hi.once p c ho.1]
    all_goals omega

/-- C43: all invocations that obtain a configuration for a path obtain the same. -/
theorem C43_same {s : Sys C n} (h : Sys.Reach path Sys.init s) (i j : Fin n) (hp : path i = path j) (c d : C)
    (hi : s.pc i = .done c) (hj : s.pc j = .done d) : c = d := by
  have hv := Inv.init.reach h
  have h1 := hv.ok i
  have h2 := hv.ok j
  unfold Ok at h1 h2
  rw [hi] at h1
  rw [hj] at h2
  simp only [hp] at h1
  exact Option.some.inj (h1.1.symm.trans h2.1)

/-- C43: no invocation finds the configuration missing after it has waited for it. -/
theorem C43_found {s : Sys C n} (h : Sys.Reach path Sys.init s) (i : Fin n) : s.pc i ≠ .crashed := by
  intro hc
  have hv := (Inv.init.reach h).ok i
  unfold Ok at hv
  rw [hc] at hv
  exact hv

/-- C43: as long as `config.New` has not panicked for a path, the invocations that want it can go on: if one of them has not
come to an end, one of them can do a step. -/
theorem C43_progress {s : Sys C n} (h : Sys.Reach path Sys.init s) (p : Str) (hf : ∀ i, path i = p → s.pc i ≠ .failed)
    (i : Fin n) (hi : path i = p) (he : ¬ Ended (s.pc i)) (out : Option C) :
    ∃ j t, path j = p ∧ s.step path j out = some t := by
  have hv := Inv.init.reach h
  have own : ∀ j, path j = p → (match s.pc j with | .waiting _ => False | _ => True) → ¬ Ended (s.pc j) →
      ∃ t, s.step path j out = some t := by
    intro j _ hw hn
    unfold Sys.step
    cases hc : s.pc j <;> rw [hc] at hw hn <;> simp only [Ended, not_true_eq_false] at hw hn ⊢
    case start => split <;> exact ⟨_, rfl⟩
    case locked => split <;> exact ⟨_, rfl⟩
    case owner => split <;> exact ⟨_, rfl⟩
    case loaded => exact ⟨_, rfl⟩
    case stored => exact ⟨_, rfl⟩
    case reading => split <;> exact ⟨_, rfl⟩
  cases hc : s.pc i with
  | waiting o =>
    have h1 := hv.ok i
    unfold Ok at h1
    rw [hc] at h1
    simp only [hi] at h1
    obtain ⟨h2, h3⟩ := hv.taken p o h1.1
    by_cases hh : s.held o = true
    · have h4 := hv.ok o
      unfold Ok at h4
      have h5 := hf o h2
      obtain ⟨t, ht⟩ := own o h2 (by cases ho : s.pc o <;> rw [ho] at h3 <;> simp_all [PC.owns])
        (by cases ho : s.pc o <;> rw [ho] at h3 h4 <;> simp_all [PC.owns, Ended])
      exact ⟨o, t, h2, ht⟩
    · refine ⟨i, { s with pc := upd s.pc i (.reading o) }, hi, ?_⟩
      unfold Sys.step
      rw [hc]
      simp only [hh, Bool.false_eq_true, ↓reduceIte]
  | _ =>
    obtain ⟨t, ht⟩ := own i hi (by rw [hc]; trivial) he
    exact ⟨i, t, hi, ht⟩

/-- How many steps a goroutine can still do. -/
def PC.left : PC C n → Nat
  | .start => 5
  | .locked => 4
  | .owner => 3
  | .loaded _ => 2
  | .stored _ => 1
  | .waiting _ => 2
  | .reading _ => 1
  | .done _ => 0
  | .failed => 0
  | .crashed => 0

theorem step_left {s t : Sys C n} {i : Fin n} {out : Option C} (hs : s.step path i out = some t) :
    ∃ x, t.pc = upd s.pc i x ∧ x.left < (s.pc i).left := by
  unfold Sys.step at hs
  cases hp : s.pc i <;> rw [hp] at hs <;> simp only at hs
  all_goals (try (split at hs)) <;> simp only [Option.some.injEq, reduceCtorEq] at hs <;> subst hs <;>
    exact ⟨_, rfl, by simp [PC.left]⟩

/-- C43: every schedule comes to an end: it has at most five steps for each invocation. -/
theorem C43_ends {k : Nat} {s : Sys C n} (h : Run path Sys.init k s) : k ≤ 5 * n := by
  have : k + ∑ i, (s.pc i).left ≤ 5 * n := by
    induction h with
    | nil => simp [Sys.init, PC.left, Nat.mul_comm]
    | @cons k t u i out _ hs ih =>
      obtain ⟨x, h1, h2⟩ := step_left hs
      have hlt : ∑ j, (u.pc j).left < ∑ j, (t.pc j).left := by
        refine Finset.sum_lt_sum (fun j _ => ?_) ⟨i, Finset.mem_univ _, ?_⟩
        · rw [h1]
          by_cases hj : j = i
          · subst hj; simp only [upd, ↓reduceIte]; exact Nat.le_of_lt h2
          · simp [upd, hj]
        · rw [h1]; simpa [upd] using h2
      omega
  omega

/-! ### Failures -/

/-- C44 is false, always: once `config.New` has panicked for a path, no other invocation that wants that configuration ever
comes to an end, whatever the schedule: it waits for a lock that nobody will release. -/
theorem C44_blocked {s t : Sys C n} (h : Sys.Reach path Sys.init s) (o : Fin n) (ho : s.pc o = .failed)
    (hr : Sys.Reach path s t) (i : Fin n) (hp : path i = path o) (hn : i ≠ o) : ¬ Ended (t.pc i) := by
  have hf : t.pc o = .failed := by
    induction hr with
    | refl => exact ho
    | @step t u j out _ hs ih =>
      obtain ⟨x, h1, h2⟩ := step_left hs
      by_cases hj : o = j
      · subst hj; rw [ih] at h2; exact absurd h2 (Nat.not_lt_zero _)
      · rw [h1]; simp only [upd, hj, ↓reduceIte]; exact ih
  have hv := (Inv.init.reach h).reach hr
  have h1 := hv.ok o
  have h2 := hv.ok i
  unfold Ok at h1 h2
  rw [hf] at h1
  cases hc : t.pc i <;> rw [hc] at h2 <;> simp only [Ended, not_true_eq_false, not_false_eq_true] at h2 ⊢
  case done c => rw [hp] at h2; rw [h1.2.1] at h2; exact nomatch h2.1
  case failed => rw [hp] at h2; rw [h1.1] at h2; exact hn (Option.some.inj h2.1).symm

/-- C44 is false: a run of two invocations after which one waits forever. -/
theorem C44_false : ∃ s : Sys Unit 2, Sys.Reach (fun _ => "hiera.yaml".toList) Sys.init s ∧ s.pc 0 = .failed ∧ s.pc 1 = .waiting 0 ∧
    ∀ t, Sys.Reach (fun _ => "hiera.yaml".toList) s t → ¬ Ended (t.pc 1) := by
  refine ⟨_, .step 1 none (.step 1 none (.step 0 none (.step 0 none (.step 0 none .refl rfl) rfl) rfl) rfl) rfl, rfl, rfl, ?_⟩
  intro t ht
  exact C44_blocked (.step 1 none (.step 1 none (.step 0 none (.step 0 none (.step 0 none .refl rfl) rfl) rfl) rfl) rfl) 0 rfl ht 1 rfl (by decide)

/-- C44, partially: a failure does not block the invocations that want other configurations: if one of them has not come to
an end, one of them can do a step, so that (with `C43_ends`) all do. Missing: those that want the same configuration, which
are blocked (`C44_blocked`). -/
theorem C44_others_partial {s : Sys C n} (h : Sys.Reach path Sys.init s) (o : Fin n) (_ : s.pc o = .failed) (p : Str)
    (hf : ∀ i, path i = p → s.pc i ≠ .failed) (i : Fin n) (hi : path i = p) (he : ¬ Ended (s.pc i)) (out : Option C) :
    ∃ j t, path j = p ∧ s.step path j out = some t ∧ j ≠ o := by
  obtain ⟨j, t, h1, h2⟩ := C43_progress h p hf i hi he out
  exact ⟨j, t, h1, h2, fun e => hf j h1 (e ▸ ‹s.pc o = .failed›)⟩

/-- Not vacuous: a run of two invocations in which the second waits for the first, and both obtain its configuration. -/
example : ∃ s : Sys Nat 2, Sys.Reach (fun _ => "hiera.yaml".toList) Sys.init s ∧ s.pc 0 = .done 7 ∧ s.pc 1 = .done 7 := by
  refine ⟨_, .step 1 none (.step 1 none (.step 0 none (.step 0 none (.step 0 (some 7)
    (.step 1 none (.step 0 none (.step 1 none (.step 0 none .refl rfl) rfl) rfl) rfl) rfl) rfl) rfl) rfl) rfl, rfl, rfl⟩

end Hiera.Conc
