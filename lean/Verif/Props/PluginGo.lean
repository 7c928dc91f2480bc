/- C95: what stays behind of a plugin. -/
import Verif.Model.PluginGo
import Mathlib.Tactic.Tauto

set_option autoImplicit false

namespace Hiera.PluginGo

/-- What is bound to happen if it can: everything but that a process ends by itself, and that a process that runs writes
something. (The session is stopped at some time.) -/
def Spec.Sure (s : State) (a : Act) : Prop := a ≠ .exit ∧ ∀ good, a = .decode good → s.live = false

/-- Nothing is bound to happen any more. -/
def Spec.AtRest (s : State) : Prop := ∀ a, Spec.Sure s a → step s a = none

/-- Some goroutine that serves the plugin has not ended. -/
def Spec.Left (s : State) : Prop :=
  s.reader ≠ .ended ∨ s.stderr = .reading ∨ s.stdout = .reading ∨ s.waiter = .waiting ∨ s.waiter = .sending

/-- What holds at any time, given which of the two timeouts has been, and whether the process has been told to end. -/
def Inv (t1 t2 told : Prop) (s : State) : Prop :=
  s.stderr ≠ .absent ∧ (s.reaped = true → s.live = false) ∧ (s.reaped = true ↔ s.waiter = .sending ∨ s.waiter = .ended) ∧
  match s.caller with
  | .awaiting => ¬t1 ∧ ¬t2 ∧ ¬told ∧ s.reader ≠ .ended ∧ s.stdout = .absent ∧ s.waiter = .absent
  | .informed => ¬t1 ∧ ¬t2 ∧ ¬told ∧ s.reader = .ended ∧ s.stdout ≠ .absent ∧ s.waiter = .absent
  | .failed => ¬t2 ∧ ¬told ∧ s.live = false ∧ s.waiter = .absent ∧ (t1 → s.reader ≠ .ended ∧ s.stdout = .absent) ∧ (¬t1 → s.reader = .ended)
  | .running => ¬t1 ∧ ¬t2 ∧ ¬told ∧ s.reader = .ended ∧ s.stdout ≠ .absent ∧ s.waiter = .absent
  | .stopping => ¬t1 ∧ ¬t2 ∧ told ∧ s.reader = .ended ∧ s.stdout ≠ .absent ∧ (s.waiter = .waiting ∨ s.waiter = .sending)
  | .draining => ¬t1 ∧ s.live = false ∧ s.reader = .ended ∧ s.stdout ≠ .absent ∧
      (t2 → told ∧ (s.waiter = .waiting ∨ s.waiter = .sending)) ∧ (¬t2 → told → s.waiter = .ended) ∧ (¬told → s.waiter = .absent)
  | .stopped => ¬t1 ∧ s.live = false ∧ s.reader = .ended ∧ s.stdout = .ended ∧ s.stderr = .ended ∧
      (t2 → told ∧ (s.waiter = .waiting ∨ s.waiter = .sending)) ∧ (¬t2 → told → s.waiter = .ended) ∧ (¬told → s.waiter = .absent)

theorem inv_step {t1 t2 told : Prop} {s s' : State} {a : Act} (h : Inv t1 t2 told s) (hs : step s a = some s') :
    Inv (t1 ∨ a = .startTimeout) (t2 ∨ a = .stopTimeout) (told ∨ a = .stop true) s' := by
  obtain ⟨live, reaped, caller, reader, stderr, stdout, waiter⟩ := s
  cases a <;> simp only [step] at hs
  case receive =>
    split at hs
    · rename_i hc
      subst hc
      cases reader with
      | decoding => cases hs
      | ended => cases hs
      | sending b => cases b <;> cases hs <;> simp_all [Inv]
    · cases hs
  case check b =>
    split at hs
    · rename_i hc
      subst hc
      cases b <;> cases hs <;> simp_all [Inv]
    · cases hs
  case stop b =>
    split at hs
    · rename_i hc
      subst hc
      cases b <;> cases hs <;> simp_all [Inv]
    · cases hs
  all_goals
    split at hs
    · rename_i hc
      cases hs
      cases caller <;> simp_all [Inv] <;> first | tauto | (cases waiter <;> cases reaped <;> simp_all)
    · cases hs

theorem inv_run {t1 t2 told : Prop} {s s' : State} {as : List Act} (h : Inv t1 t2 told s) (hs : run s as = some s') :
    Inv (t1 ∨ .startTimeout ∈ as) (t2 ∨ .stopTimeout ∈ as) (told ∨ .stop true ∈ as) s' := by
  induction as generalizing s t1 t2 told with
  | nil => cases hs; simpa using h
  | cons a as ih =>
    unfold run at hs
    cases ha : step s a with
    | none => rw [ha] at hs; cases hs
    | some u =>
      rw [ha] at hs
      have := ih (inv_step h ha) hs
      simp only [List.mem_cons]
      have e : ∀ (p : Prop) (x : Act), ((p ∨ a = x) ∨ x ∈ as) = (p ∨ x = a ∨ x ∈ as) := by
        intro p x
        rw [or_assoc, eq_comm (a := a)]
      rw [e, e, e] at this
      exact this

/-- How much can happen at most. -/
def rank (s : State) : Nat :=
  (if s.live then 1 else 0) +
  (match s.reader with | .decoding => 2 | .sending _ => 1 | .ended => 0) +
  (match s.stderr with | .absent => 2 | .reading => 1 | .ended => 0) +
  (match s.stdout with | .absent => 1 | .reading => 1 | .ended => 0) +
  (match s.waiter with | .absent => 2 | .waiting => 2 | .sending => 1 | .ended => 0) +
  (match s.caller with | .awaiting => 5 | .informed => 4 | .running => 3 | .stopping => 2 | .draining => 1 | .failed => 0 | .stopped => 0)

theorem rank_step {t1 t2 told : Prop} {s s' : State} {a : Act} (hi : Inv t1 t2 told s) (hs : step s a = some s') : rank s' < rank s := by
  obtain ⟨live, reaped, caller, reader, stderr, stdout, waiter⟩ := s
  cases a <;> simp only [step] at hs
  case receive =>
    split at hs
    · rename_i hc
      subst hc
      cases reader with
      | decoding => cases hs
      | ended => cases hs
      | sending b => cases b <;> cases hs <;> cases live <;> cases stdout <;> simp +arith [rank]
    · cases hs
  case check b =>
    split at hs
    · rename_i hc
      subst hc
      cases b <;> cases hs <;> cases live <;> simp +arith [rank]
    · cases hs
  case stop b =>
    split at hs
    · rename_i hc
      subst hc
      have hw : waiter = .absent := hi.2.2.2.2.2.2.2.2
      subst hw
      cases b <;> cases hs <;> cases live <;> simp +arith [rank]
    · cases hs
  all_goals
    split at hs
    · rename_i hc
      cases hs
      cases live <;> simp_all [rank] <;> omega
    · cases hs

theorem run_rank {t1 t2 told : Prop} {s s' : State} {as : List Act} (hi : Inv t1 t2 told s) (hs : run s as = some s') : as.length + rank s' ≤ rank s := by
  induction as generalizing s t1 t2 told with
  | nil => cases hs; simp
  | cons a as ih =>
    unfold run at hs
    cases ha : step s a with
    | none => rw [ha] at hs; cases hs
    | some u =>
      rw [ha] at hs
      have := ih (inv_step hi ha) hs
      have := rank_step hi ha
      simp only [List.length_cons]
      omega

theorem inv_init {s : State} {as : List Act} (hs : run init as = some s) :
    Inv (.startTimeout ∈ as) (.stopTimeout ∈ as) (.stop true ∈ as) s := by
  have h : Inv False False False init := by simp [Inv, init]
  simpa using inv_run h hs

/-- C95: serving a plugin comes to an end. -/
theorem C95_ends {s : State} {as : List Act} (hs : run init as = some s) : as.length ≤ 12 := by
  have h := run_rank (show Inv False False False init by simp [Inv, init]) hs
  have : rank init = 12 := rfl
  omega

/-- C95: at the end the plugin has been stopped or could not be started, its process has ended, and what reads its output
has too. -/
theorem C95_at_rest {s : State} {as : List Act} (hs : run init as = some s) (hr : Spec.AtRest s) :
    (s.caller = .failed ∨ s.caller = .stopped) ∧ s.live = false ∧ s.stderr = .ended ∧ s.stdout ≠ .reading := by
  have h := inv_init hs
  obtain ⟨live, reaped, caller, reader, stderr, stdout, waiter⟩ := s
  have r1 := hr .startTimeout (by simp [Spec.Sure])
  have r2 := hr .receive (by simp [Spec.Sure])
  have r3 := hr (.check true) (by simp [Spec.Sure])
  have r4 := hr .eofErr (by simp [Spec.Sure])
  have r5 := hr .eofOut (by simp [Spec.Sure])
  have r6 := hr (.stop true) (by simp [Spec.Sure])
  have r7 := hr .stopTimeout (by simp [Spec.Sure])
  have r8 := hr .drained (by simp [Spec.Sure])
  cases caller <;> cases stderr <;> cases stdout <;> simp_all [step, Inv]

/-- C95, the part that holds: if nothing took too long, no goroutine is left. -/
theorem C95_nothing_left_partial {s : State} {as : List Act} (hs : run init as = some s) (hr : Spec.AtRest s)
    (h1 : .startTimeout ∉ as) (h2 : .stopTimeout ∉ as) : ¬Spec.Left s := by
  have h := inv_init hs
  obtain ⟨hc, hl, he, ho⟩ := C95_at_rest hs hr
  obtain ⟨live, reaped, caller, reader, stderr, stdout, waiter⟩ := s
  rcases hc with hc | hc <;> by_cases ht : Act.stop true ∈ as <;> simp_all [Inv, Spec.Left]

/-- C95: when `kill` has returned the process has ended, and all goroutines have that it waits for. -/
theorem C95_stopped {s : State} {as : List Act} (hs : run init as = some s) (hc : s.caller = .stopped) :
    s.live = false ∧ s.reader = .ended ∧ s.stderr = .ended ∧ s.stdout = .ended := by
  have h := inv_init hs
  obtain ⟨live, reaped, caller, reader, stderr, stdout, waiter⟩ := s
  simp_all [Inv]

/-- C95: when a plugin could not be started its process has ended. -/
theorem C95_failed {s : State} {as : List Act} (hs : run init as = some s) (hc : s.caller = .failed) : s.live = false := by
  have h := inv_init hs
  obtain ⟨live, reaped, caller, reader, stderr, stdout, waiter⟩ := s
  simp_all [Inv]

/-- C95 is false if it takes too long to start: `awaitMetaData` never ends. -/
theorem C95_false_start {s : State} {as : List Act} (hs : run init as = some s) (h : .startTimeout ∈ as) : s.reader ≠ .ended := by
  have hi := inv_init hs
  obtain ⟨live, reaped, caller, reader, stderr, stdout, waiter⟩ := s
  cases caller <;> simp_all [Inv]

/-- C95 is false if it takes too long to stop: the goroutine that waits for the process never ends. -/
theorem C95_false_stop {s : State} {as : List Act} (hs : run init as = some s) (h : .stopTimeout ∈ as) :
    s.waiter = .waiting ∨ s.waiter = .sending := by
  have hi := inv_init hs
  obtain ⟨live, reaped, caller, reader, stderr, stdout, waiter⟩ := s
  cases caller <;> simp_all [Inv]

/-- C95: exactly the two timeouts leave something behind. -/
theorem C95_left_iff {s : State} {as : List Act} (hs : run init as = some s) (hr : Spec.AtRest s) :
    Spec.Left s ↔ .startTimeout ∈ as ∨ .stopTimeout ∈ as := by
  constructor
  · intro h
    by_cases h1 : Act.startTimeout ∈ as
    · exact .inl h1
    · by_cases h2 : Act.stopTimeout ∈ as
      · exact .inr h2
      · exact absurd h (C95_nothing_left_partial hs hr h1 h2)
  · rintro (h | h)
    · exact .inl (C95_false_start hs h)
    · rcases C95_false_stop hs h with h | h
      · exact .inr (.inr (.inr (.inl h)))
      · exact .inr (.inr (.inr (.inr h)))

/-- C95: the operating system is asked to forget the process exactly if it has been told to end: the processes of plugins
that could not be started, and of those that could only be killed, stay in its table. -/
theorem C95_reaped_iff {s : State} {as : List Act} (hs : run init as = some s) (hr : Spec.AtRest s) :
    s.reaped = true ↔ .stop true ∈ as := by
  have h := inv_init hs
  obtain ⟨hc, hl, _⟩ := C95_at_rest hs hr
  have hw := hr .waited (by simp [Spec.Sure])
  obtain ⟨live, reaped, caller, reader, stderr, stdout, waiter⟩ := s
  rcases hc with hc | hc <;> by_cases ht : Act.stop true ∈ as <;> by_cases h2 : Act.stopTimeout ∈ as <;>
    simp_all [Inv, step]

/-- A plugin that is started and stopped, and one of each kind that leaves something behind. -/
example : ∃ s, run init [.decode true, .receive, .check true, .stop true, .exit, .waited, .eofErr, .eofOut, .done, .drained] = some s ∧
    Spec.AtRest s ∧ ¬Spec.Left s ∧ s.caller = .stopped :=
  ⟨_, rfl, by rintro (_ | _ | _ | _ | _ | _ | _ | _ | _ | _ | _ | _) h <;> rfl, by simp [Spec.Left], rfl⟩

example : ∃ s, run init [.startTimeout, .decode false, .eofErr] = some s ∧ Spec.AtRest s ∧ s.reader = .sending false :=
  ⟨_, rfl, by rintro (_ | _ | _ | _ | _ | _ | _ | _ | _ | _ | _ | _) h <;> rfl, rfl⟩

example : ∃ s, run init [.decode true, .receive, .check true, .stop true, .stopTimeout, .waited, .eofErr, .eofOut, .drained] = some s ∧
    Spec.AtRest s ∧ s.waiter = .sending :=
  ⟨_, rfl, by rintro (_ | _ | _ | _ | _ | _ | _ | _ | _ | _ | _ | _) h <;> rfl, rfl⟩

end Hiera.PluginGo
