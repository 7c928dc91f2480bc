/- C72: starting a plugin again after a failure. -/
import Verif.Props.Plugin

set_option autoImplicit false

namespace Hiera.Plugin

open Spec

theorem named_error {k : Kind} {l : List (Option Str)} {e : Problem} (h : named k l = .error e) : e = .names := by
  induction l generalizing e with
  | nil => cases h
  | cons x l ih =>
    cases x with
    | none => cases h; rfl
    | some n =>
      rw [named] at h
      split at h
      · rename_i hn; cases h; exact ih hn
      · cases h

theorem functionMap_error {l : List (Str × Option (List (Option Str)))} {e : Problem} (h : functionMap l = .error e) : e = .names := by
  induction l generalizing e with
  | nil => cases h
  | cons x l ih =>
    obtain ⟨k, v⟩ := x
    cases v with
    | none => cases h; rfl
    | some ns =>
      rw [functionMap] at h
      split at h
      · rename_i hn; cases h; exact named_error hn
      · split at h
        · rename_i hn; cases h; exact ih hn
        · cases h

/-- Starting a plugin that is not registered. -/
theorem startPlugin_body {w : World} {path : Str} (hr : lookupReg path w.reg = none) {a : Answer} (h1 : a ≠ .noPipe) (h2 : a ≠ .noStart) :
    (startPlugin path a w).1 = (started path w.procs.length a).1 ∧
    (startPlugin path a w).2.reg = (match (started path w.procs.length a).2 with
      | none => w.reg
      | some _ => (path, w.plugins.length) :: w.reg) ∧
    (startPlugin path a w).2.plugins = (match (started path w.procs.length a).2 with
      | none => w.plugins
      | some p => w.plugins ++ [p]) := by
  unfold startPlugin
  simp only [hr, Option.bind_none]
  cases a <;> first | exact absurd rfl h1 | exact absurd rfl h2 | skip
  all_goals
    generalize started path w.procs.length _ = x
    obtain ⟨r, reg⟩ := x
    cases r <;> cases reg <;> simp

theorem started_pid (path : Str) (i j : Nat) (a : Answer) : (started path i a).1 = (started path j a).1 := by
  cases a with
  | answered m =>
    unfold started
    simp only
    have : ∀ pid, initPlugin { locked := false, process := some pid, path := path, addr := [], network := [], functions := [], kills := 0 } m =
        (initPlugin { locked := false, process := some 0, path := path, addr := [], network := [], functions := [], kills := 0 } m).map
          (fun p => { p with process := some pid }) := by
      intro pid
      unfold initPlugin
      split
      · rfl
      · split
        · rfl
        · dsimp only
          split <;> rfl
    rw [this i, this j]
    generalize initPlugin _ m = q
    cases q <;> rfl
  | _ => rfl

theorem initPlugin_error {p : Plugin} {m : Meta} {e : Problem} (h : initPlugin p m = .error e) : e ≠ .names := by
  unfold initPlugin at h
  split at h
  · cases h; decide
  · split at h
    · cases h; decide
    · dsimp only at h
      split at h
      · cases h; decide
      · cases h

/-- A plugin that fails when it is started is registered if and only if it has bad names of functions. -/
theorem started_error {path : Str} {pid : Nat} {a : Answer} {e : Problem} (h : (started path pid a).1 = .error e) :
    (e ≠ .names ∧ (started path pid a).2 = none) ∨
    (e = .names ∧ ∃ p, (started path pid a).2 = some p ∧ functionMap p.functions = .error .names) := by
  unfold started at h ⊢
  cases a with
  | answered m =>
    simp only at h ⊢
    split at h
    · rename_i hq
      cases h
      exact .inl ⟨initPlugin_error hq, rfl⟩
    · have := functionMap_error h
      subst this
      exact .inr ⟨rfl, _, rfl, h⟩
  | noPipe => cases h; exact .inl ⟨by decide, rfl⟩
  | noStart => cases h; exact .inl ⟨by decide, rfl⟩
  | timeout => cases h; exact .inl ⟨by decide, rfl⟩
  | garbage => cases h; exact .inl ⟨by decide, rfl⟩

theorem startPlugin_noPipe {w : World} {path : Str} (hr : lookupReg path w.reg = none) : startPlugin path .noPipe w = (.error .pipe, w) := by
  simp [startPlugin, hr]

theorem startPlugin_noStart {w : World} {path : Str} (hr : lookupReg path w.reg = none) : startPlugin path .noStart w = (.error .start, w) := by
  simp [startPlugin, hr]

theorem startPlugin_reg {w : World} {path : Str} {i : Nat} {p : Plugin} (hr : lookupReg path w.reg = some i) (hp : w.plugins[i]? = some p)
    (a : Answer) : startPlugin path a w = (functionMap p.functions, w) := by
  simp [startPlugin, hr, hp]

/-- Starting a plugin that is not registered gives what its answer says. -/
theorem startPlugin_fresh {w : World} {path : Str} (h : lookupReg path w.reg = none) (a : Answer) :
    (startPlugin path a w).1 = (startPlugin path a World.init).1 := by
  have hi : lookupReg path World.init.reg = none := rfl
  by_cases h1 : a = .noPipe
  · subst h1; rw [startPlugin_noPipe h, startPlugin_noPipe hi]
  by_cases h2 : a = .noStart
  · subst h2; rw [startPlugin_noStart h, startPlugin_noStart hi]
  rw [(startPlugin_body h h1 h2).1, (startPlugin_body hi h1 h2).1]
  exact started_pid _ _ _ _

/-- **C72**, except for bad names of functions: whatever has happened in a session, if starting a plugin fails, then
starting it again gives what it would give in a new session. -/
theorem C72_again_partial (ops : List Op) (w : World) (h : World.init.after ops = some w) (path : Str) (a : Answer) (e : Problem)
    (he : (startPlugin path a w).1 = .error e) (hn : e ≠ .names) (b : Answer) :
    (startPlugin path b (startPlugin path a w).2).1 = (startPlugin path b World.init).1 := by
  have inv := Inv.of_after h
  refine startPlugin_fresh ?_ b
  cases hr : lookupReg path w.reg with
  | some i =>
    obtain ⟨p, hp, _⟩ := inv.reg path i (lookupReg_mem hr)
    rw [startPlugin_reg hr hp] at he
    exact absurd (functionMap_error he) hn
  | none =>
    by_cases h1 : a = .noPipe
    · subst h1; rw [startPlugin_noPipe hr]; exact hr
    by_cases h2 : a = .noStart
    · subst h2; rw [startPlugin_noStart hr]; exact hr
    obtain ⟨b1, b2, _⟩ := startPlugin_body hr h1 h2
    rw [b1] at he
    rcases started_error he with ⟨_, h3⟩ | ⟨h3, _⟩
    · rw [b2, h3]; exact hr
    · exact absurd h3 hn

/-- **C72** does not hold as it stands: a plugin with bad names of functions is registered before they are looked at, so
that it is never started again, whatever it would answer. -/
theorem C72_names (ops : List Op) (w : World) (h : World.init.after ops = some w) (path : Str) (a b : Answer)
    (he : (startPlugin path a w).1 = .error .names) :
    startPlugin path b (startPlugin path a w).2 = (.error .names, (startPlugin path a w).2) := by
  have inv := Inv.of_after h
  cases hr : lookupReg path w.reg with
  | some i =>
    obtain ⟨p, hp, _⟩ := inv.reg path i (lookupReg_mem hr)
    rw [startPlugin_reg hr hp] at he ⊢
    dsimp only at he ⊢
    rw [startPlugin_reg hr hp, he]
  | none =>
    by_cases h1 : a = .noPipe
    · subst h1; rw [startPlugin_noPipe hr] at he; cases he
    by_cases h2 : a = .noStart
    · subst h2; rw [startPlugin_noStart hr] at he; cases he
    obtain ⟨b1, b2, b3⟩ := startPlugin_body hr h1 h2
    rw [b1] at he
    rcases started_error he with ⟨h3, _⟩ | ⟨_, p, h3, h4⟩
    · exact absurd rfl h3
    · rw [h3] at b2 b3
      dsimp only at b2 b3
      rw [startPlugin_reg (i := w.plugins.length) (p := p) (by rw [b2]; simp [lookupReg]) (by rw [b3]; simp), h4]

/-- A plugin that answers first with bad names and then with good ones. -/
theorem C72_false :
    (startPlugin "/a".toList (.answered { goodMeta with functions := some [("data_hash".toList, none)] }) World.init).1 = .error .names ∧
    (startPlugin "/a".toList (.answered goodMeta)
      (startPlugin "/a".toList (.answered { goodMeta with functions := some [("data_hash".toList, none)] }) World.init).2).1 = .error .names ∧
    (startPlugin "/a".toList (.answered goodMeta) World.init).1 ≠ .error .names := by
  decide +kernel

example : (startPlugin "/a".toList .timeout World.init).1 = .error .timeout ∧
    (startPlugin "/a".toList (.answered goodMeta) (startPlugin "/a".toList .timeout World.init).2).1 =
      (startPlugin "/a".toList (.answered goodMeta) World.init).1 ∧
    ((startPlugin "/a".toList (.answered goodMeta) World.init).1 matches .ok _) := by
  decide +kernel

end Hiera.Plugin
