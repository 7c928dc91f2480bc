/- C49, C50, C51: plugin processes. -/
import Verif.Model.Plugin
import Mathlib.Data.List.Basic

set_option autoImplicit false

namespace Hiera.Plugin

/-- The process with this number runs the plugin at this path. -/
def Spec.Live (w : World) (path : Str) (pid : Nat) : Prop := ∃ h : pid < w.procs.length, w.procs[pid].live = true ∧ w.procs[pid].path = path

open Spec

/-- What is so in every world that is reached. -/
structure Inv (w : World) : Prop where
  /-- a process that is live is that of a registered plugin, which has functions -/
  live : ∀ path pid, Live w path pid → ∃ i p, (path, i) ∈ w.reg ∧ w.plugins[i]? = some p ∧ p.process = some pid ∧
    ∃ m, functionMap p.functions = .ok m
  keys : (w.reg.map Prod.fst).Nodup
  /-- a registered plugin has a process and has not been killed -/
  reg : ∀ path i, (path, i) ∈ w.reg → ∃ p, w.plugins[i]? = some p ∧ p.path = path ∧ p.locked = false ∧ p.kills = 0 ∧
    ∃ pid, p.process = some pid ∧ ∃ h : pid < w.procs.length, w.procs[pid].path = path
  /-- no plugin has been killed twice -/
  kills : ∀ (i : Nat) (p : Plugin), w.plugins[i]? = some p → p.kills ≤ 1

theorem lookupReg_mem {path : Str} {r : List (Str × Nat)} {i : Nat} (h : lookupReg path r = some i) : (path, i) ∈ r := by
  induction r with
  | nil => exact nomatch h
  | cons e r ih =>
    obtain ⟨p, j⟩ := e
    simp only [lookupReg] at h
    split at h
    · next hp => subst hp; cases h; exact List.mem_cons_self
    · exact List.mem_cons_of_mem _ (ih h)

theorem lookupReg_none {path : Str} {r : List (Str × Nat)} (h : lookupReg path r = none) (i : Nat) : (path, i) ∉ r := by
  induction r with
  | nil => exact List.not_mem_nil
  | cons e r ih =>
    obtain ⟨p, j⟩ := e
    simp only [lookupReg] at h
    split at h
    · exact nomatch h
    · next hp =>
      intro hm
      rcases List.mem_cons.mp hm with h1 | h1
      · exact hp (by cases h1; rfl)
      · exact ih h h1

theorem reg_inj {r : List (Str × Nat)} (h : (r.map Prod.fst).Nodup) {path : Str} {i j : Nat} (hi : (path, i) ∈ r) (hj : (path, j) ∈ r) :
    i = j := by
  induction r with
  | nil => exact nomatch hi
  | cons e r ih =>
    rw [List.map_cons, List.nodup_cons] at h
    have no : ∀ k, (path, k) ∈ r → e.1 ≠ path := fun k hk he => h.1 (he ▸ List.mem_map_of_mem (f := Prod.fst) hk)
    rcases List.mem_cons.mp hi with h1 | h1 <;> rcases List.mem_cons.mp hj with h2 | h2
    · exact congrArg Prod.snd (h1.trans h2.symm)
    · exact absurd (congrArg Prod.fst h1.symm) (no j h2)
    · exact absurd (congrArg Prod.fst h2.symm) (no i h1)
    · exact ih h.2 h1 h2

theorem endProc_length (ps : List Proc) (pid : Nat) : (endProc ps pid).length = ps.length := by simp [endProc]

theorem live_endProc {w : World} {pid : Nat} {path : Str} {q : Nat} (pl : List Plugin) (r : List (Str × Nat)) :
    Live { procs := endProc w.procs pid, plugins := pl, reg := r } path q ↔ Live w path q ∧ q ≠ pid := by
  constructor
  · rintro ⟨h1, h2, h3⟩
    have hl : q < w.procs.length := by simpa [endProc] using h1
    simp only [endProc, List.getElem_modify] at h2 h3
    by_cases hq : pid = q
    · simp [hq] at h2
    · simp only [hq, ↓reduceIte] at h2 h3
      exact ⟨⟨hl, h2, h3⟩, Ne.symm hq⟩
  · rintro ⟨⟨h1, h2, h3⟩, h4⟩
    refine ⟨by simpa [endProc] using h1, ?_, ?_⟩ <;> simp only [endProc, List.getElem_modify, if_neg (Ne.symm h4)] <;> assumption

theorem endProc_path {ps : List Proc} {pid q : Nat} (h : q < (endProc ps pid).length) (h' : q < ps.length) :
    (endProc ps pid)[q].path = ps[q].path := by
  simp only [endProc, List.getElem_modify]; split <;> rfl

theorem Inv.init : Inv World.init where
  live := fun _ _ ⟨h, _⟩ => absurd h (Nat.not_lt_zero _)
  keys := List.nodup_nil
  reg := fun _ _ h => nomatch h
  kills := fun _ _ h => nomatch h

/-- Processes may end. -/
theorem Inv.endProc {w : World} (h : Inv w) (pid : Nat) : Inv { w with procs := endProc w.procs pid } where
  live := fun path q hq => h.live path q ((live_endProc w.plugins w.reg).mp hq).1
  keys := h.keys
  reg := fun path i hi => by
    obtain ⟨p, h1, h2, h3, h4, q, h5, h6, h7⟩ := h.reg path i hi
    exact ⟨p, h1, h2, h3, h4, q, h5, by rw [endProc_length]; exact h6, by rw [endProc_path _ h6]; exact h7⟩
  kills := h.kills

theorem endProc_last (ps : List Proc) (path : Str) :
    endProc (ps ++ [{ path := path, live := true }]) ps.length = ps ++ [{ path := path, live := false }] := by
  induction ps with
  | nil => rfl
  | cons p ps ih => simpa [Plugin.endProc] using ih

/-- A process that is started and ends again. -/
theorem Inv.failed {w : World} (h : Inv w) (path : Str) : Inv { w with procs := w.procs ++ [{ path := path, live := false }] } where
  live := fun p q hq => by
    obtain ⟨h1, h2, h3⟩ := hq
    by_cases hl : q < w.procs.length
    · exact h.live p q ⟨hl, by simpa [List.getElem_append_left hl] using h2, by simpa [List.getElem_append_left hl] using h3⟩
    · have hn : q = w.procs.length := by simp at h1; omega
      subst hn
      simp at h2
  keys := h.keys
  reg := fun p i hi => by
    obtain ⟨p', h1, h2, h3, h4, q, h5, h6, h7⟩ := h.reg p i hi
    refine ⟨p', h1, h2, h3, h4, q, h5, ?_, ?_⟩
    · simp only [List.length_append]; omega
    · rw [List.getElem_append_left h6]; exact h7
  kills := h.kills

/-- A process that is started and registered. -/
theorem Inv.registered {w : World} (h : Inv w) (path : Str) (hn : ∀ i, (path, i) ∉ w.reg) (p : Plugin)
    (h1 : p.path = path) (h2 : p.locked = false) (h3 : p.kills = 0) (h4 : p.process = some w.procs.length)
    (b : Bool) (h5 : b = true → ∃ m, functionMap p.functions = .ok m) :
    Inv { procs := w.procs ++ [{ path := path, live := b }], plugins := w.plugins ++ [p], reg := (path, w.plugins.length) :: w.reg } where
  live := by
    rintro q n ⟨a1, a2, a3⟩
    by_cases hl : n < w.procs.length
    · simp only [List.getElem_append_left hl] at a2 a3
      obtain ⟨i, p', b1, b2, b3, b4⟩ := h.live q n ⟨hl, a2, a3⟩
      exact ⟨i, p', List.mem_cons_of_mem _ b1, by rw [List.getElem?_append_left (List.getElem?_eq_some_iff.mp b2).1]; exact b2, b3, b4⟩
    · have hn : n = w.procs.length := by simp at a1; omega
      subst hn
      simp at a2 a3
      subst a3
      exact ⟨w.plugins.length, p, List.mem_cons_self, by simp, h4, h5 a2⟩
  keys := by
    rw [List.map_cons, List.nodup_cons]
    refine ⟨fun hm => ?_, h.keys⟩
    obtain ⟨⟨a, i⟩, b1, b2⟩ := List.mem_map.mp hm
    simp only at b2; subst b2
    exact hn i b1
  reg := by
    intro q i hi
    rcases List.mem_cons.mp hi with e | hi
    · cases e
      exact ⟨p, by simp, h1, h2, h3, _, h4, by simp, by simp⟩
    · obtain ⟨p', a1, a2, a3, a4, n, a5, a6, a7⟩ := h.reg q i hi
      refine ⟨p', by rw [List.getElem?_append_left (List.getElem?_eq_some_iff.mp a1).1]; exact a1, a2, a3, a4, n, a5, ?_, ?_⟩
      · simp only [List.length_append]; omega
      · rw [List.getElem_append_left a6]; exact a7
  kills := by
    intro i p' hi
    by_cases hl : i < w.plugins.length
    · rw [List.getElem?_append_left hl] at hi; exact h.kills i p' hi
    · rw [List.getElem?_append_right (by omega)] at hi
      cases hx : i - w.plugins.length with
      | zero => rw [hx] at hi; cases hi; omega
      | succ k => rw [hx] at hi; exact nomatch hi

/-- `initPlugin` sets the address, the network and the functions. -/
theorem initPlugin_ok {p q : Plugin} {m : Meta} (h : initPlugin p m = .ok q) :
    q.path = p.path ∧ q.locked = p.locked ∧ q.kills = p.kills ∧ q.process = p.process := by
  unfold initPlugin at h
  split at h
  · exact nomatch h
  · split at h
    · exact nomatch h
    · simp only at h
      split at h
      · exact nomatch h
      · cases h; exact ⟨rfl, rfl, rfl, rfl⟩

theorem started_ok {path : Str} {pid : Nat} {a : Answer} {m : List (Str × Kind)} (h : (started path pid a).1 = .ok m) :
    ∃ p, (started path pid a).2 = some p ∧ functionMap p.functions = .ok m := by
  unfold started at h ⊢
  cases a <;> simp only at h ⊢
  case answered mt =>
    split at h
    · exact nomatch h
    · next q hq => exact ⟨q, rfl, h⟩
  all_goals exact nomatch h

theorem started_some {path : Str} {pid : Nat} {a : Answer} {p : Plugin} (h : (started path pid a).2 = some p) :
    p.path = path ∧ p.locked = false ∧ p.kills = 0 ∧ p.process = some pid := by
  unfold started at h
  cases a <;> simp only at h
  case answered mt =>
    split at h
    · exact nomatch h
    · next q hq => cases h; exact initPlugin_ok hq
  all_goals exact nomatch h

/-- What `startPlugin` can do: give the functions of a registered plugin, fail before there is a process, start a process
and end it, or start a process and keep it. -/
theorem startPlugin_cases {w : World} (h : Inv w) (path : Str) (a : Answer) :
    (∃ i p, (path, i) ∈ w.reg ∧ w.plugins[i]? = some p ∧ startPlugin path a w = (functionMap p.functions, w)) ∨
    (∀ i, (path, i) ∉ w.reg) ∧
     ((∃ e, startPlugin path a w = (.error e, w)) ∨
      (∃ e, startPlugin path a w = (.error e, { w with procs := w.procs ++ [{ path := path, live := false }] })) ∨
      (∃ r p b, startPlugin path a w = (r, { procs := w.procs ++ [{ path := path, live := b }], plugins := w.plugins ++ [p],
                                              reg := (path, w.plugins.length) :: w.reg }) ∧
        p.path = path ∧ p.locked = false ∧ p.kills = 0 ∧ p.process = some w.procs.length ∧
        (b = true → ∃ m, r = .ok m ∧ functionMap p.functions = .ok m) ∧ (b = false → ∃ e, r = .error e))) := by
  cases hr : lookupReg path w.reg with
  | some i =>
    have hm := lookupReg_mem hr
    obtain ⟨p, h1, _⟩ := h.reg path i hm
    exact .inl ⟨i, p, hm, h1, by simp only [startPlugin, hr, Option.bind_some, h1]⟩
  | none =>
    refine .inr ⟨lookupReg_none hr, ?_⟩
    have body : ∀ a', (a' = .noPipe → False) → (a' = .noStart → False) → startPlugin path a' w =
        (match (started path w.procs.length a').1 with
        | .ok m => (.ok m, match (started path w.procs.length a').2 with
          | none => { w with procs := w.procs ++ [{ path := path, live := true }] }
          | some p => { procs := w.procs ++ [{ path := path, live := true }], plugins := w.plugins ++ [p], reg := (path, w.plugins.length) :: w.reg })
        | .error e => (.error e, match (started path w.procs.length a').2 with
          | none => { w with procs := w.procs ++ [{ path := path, live := false }] }
          | some p => { procs := w.procs ++ [{ path := path, live := false }], plugins := w.plugins ++ [p], reg := (path, w.plugins.length) :: w.reg })) := by
      intro a' h1 h2
      unfold startPlugin
      simp only [hr, Option.bind_none]
      cases a' <;> first | exact absurd rfl h1 | exact absurd rfl h2 | skip
      all_goals
        generalize started path w.procs.length _ = x
        obtain ⟨r, reg⟩ := x
        cases r <;> cases reg <;> simp [endProc_last]
    by_cases ha : a = .noPipe
    · subst ha; exact .inl ⟨.pipe, by simp [startPlugin, hr]⟩
    by_cases hb : a = .noStart
    · subst hb; exact .inl ⟨.start, by simp [startPlugin, hr]⟩
    refine .inr ?_
    rw [body a ha hb]
    cases h1 : (started path w.procs.length a).1 with
    | ok m =>
      obtain ⟨p, h2, h3⟩ := started_ok h1
      obtain ⟨b1, b2, b3, b4⟩ := started_some h2
      rw [h2]
      exact .inr ⟨.ok m, p, true, rfl, b1, b2, b3, b4, fun _ => ⟨m, rfl, h3⟩, nofun⟩
    | error e =>
      cases h2 : (started path w.procs.length a).2 with
      | none => exact .inl ⟨e, rfl⟩
      | some p =>
        obtain ⟨b1, b2, b3, b4⟩ := started_some h2
        exact .inr ⟨.error e, p, false, rfl, b1, b2, b3, b4, nofun, fun _ => ⟨e, rfl⟩⟩

theorem Inv.start {w : World} (h : Inv w) (path : Str) (a : Answer) : Inv (startPlugin path a w).2 := by
  rcases startPlugin_cases h path a with ⟨i, p, _, _, e⟩ | ⟨hn, ⟨e', e⟩ | ⟨e', e⟩ | ⟨r, p, b, e, h1, h2, h3, h4, h5, _⟩⟩ <;> rw [e]
  · exact h
  · exact h
  · exact h.failed path
  · exact h.registered path hn p h1 h2 h3 h4 b fun hb => (h5 hb).imp fun m hm => hm.2

/-- The loop kills what is registered, and never waits. -/
theorem killAll_ok (how : Nat → Ending) (r : List (Str × Nat)) (w : World) (hk : (r.map Prod.fst).Nodup)
    (hreg : ∀ path i, (path, i) ∈ r → ∃ p : Plugin, w.plugins[i]? = some p ∧ p.path = path ∧ p.locked = false ∧ p.kills = 0 ∧ ∃ pid, p.process = some pid)
    (hkills : ∀ (i : Nat) (p : Plugin), w.plugins[i]? = some p → p.kills ≤ 1) :
    ∃ w', killAll how r w = some w' ∧ w'.procs.length = w.procs.length ∧
      (∀ (i : Nat) (p : Plugin), w'.plugins[i]? = some p → p.kills ≤ 1) ∧
      ∀ path pid, Live w' path pid → Live w path pid ∧ ∀ q i p, (q, i) ∈ r → w.plugins[i]? = some p → p.process ≠ some pid := by
  induction r generalizing w with
  | nil => exact ⟨w, rfl, rfl, hkills, fun _ _ h => ⟨h, fun _ _ _ h => nomatch h⟩⟩
  | cons e r ih =>
    obtain ⟨path, i⟩ := e
    obtain ⟨p, h1, h2, h3, h4, pid, h5⟩ := hreg path i List.mem_cons_self
    rw [List.map_cons, List.nodup_cons] at hk
    have hkill : kill i (how i) w = some { w with procs := endProc w.procs pid, plugins := w.plugins.set i { p with process := none, kills := p.kills + 1 } } := by
      simp only [kill, h1, h3, Bool.false_eq_true, ↓reduceIte, h5]
      cases how i <;> rfl
    have hne : ∀ q j, (q, j) ∈ r → i ≠ j := by
      rintro q j hj rfl
      obtain ⟨p', a1, a2, _⟩ := hreg q i (List.mem_cons_of_mem _ hj)
      rw [h1] at a1; cases a1
      exact hk.1 ((h2.symm.trans a2) ▸ List.mem_map_of_mem (f := Prod.fst) hj)
    obtain ⟨w', b1, b2, b3, b4⟩ := ih { w with procs := endProc w.procs pid, plugins := w.plugins.set i { p with process := none, kills := p.kills + 1 } } hk.2
      (fun q j hj => by
        obtain ⟨p', a1, a2⟩ := hreg q j (List.mem_cons_of_mem _ hj)
        exact ⟨p', by rw [List.getElem?_set_ne (hne q j hj)]; exact a1, a2⟩)
      (fun j p' hj => by
        by_cases hij : i = j
        · subst hij
          rw [List.getElem?_set_self (List.getElem?_eq_some_iff.mp h1).1] at hj
          cases hj
          simp [h4]
        · rw [List.getElem?_set_ne hij] at hj; exact hkills j p' hj)
    refine ⟨w', by simp only [killAll, hkill]; exact b1, by rw [b2]; exact endProc_length _ _, b3, fun q n hl => ?_⟩
    obtain ⟨c1, c2⟩ := b4 q n hl
    rw [live_endProc] at c1
    refine ⟨c1.1, fun q' j p' hj hp => ?_⟩
    rcases List.mem_cons.mp hj with e | hj
    · cases e
      rw [h1] at hp; cases hp
      rw [h5]; exact fun e => c1.2 (Option.some.inj e).symm
    · exact c2 q' j p' hj (by rw [List.getElem?_set_ne (hne q' j hj)]; exact hp)

theorem stopAll_ok {w : World} (h : Inv w) (how : Nat → Ending) :
    ∃ w', stopAll how w = some w' ∧ Inv w' ∧ w'.procs.length = w.procs.length ∧ ∀ path pid, ¬ Live w' path pid := by
  obtain ⟨w', h1, h2, h3, h4⟩ := killAll_ok how w.reg w h.keys
    (fun path i hi => by
      obtain ⟨p, a1, a2, a3, a4, pid, a5, _⟩ := h.reg path i hi
      exact ⟨p, a1, a2, a3, a4, pid, a5⟩) h.kills
  have dead : ∀ path pid, ¬ Live { w' with reg := [] } path pid := by
    intro path pid hl
    obtain ⟨c1, c2⟩ := h4 path pid hl
    obtain ⟨i, p, a1, a2, a3, _⟩ := h.live path pid c1
    exact c2 path i p a1 a2 a3
  refine ⟨{ w' with reg := [] }, by simp only [stopAll, h1], ⟨fun path pid hl => absurd hl (dead path pid), List.nodup_nil, fun _ _ h => (nomatch h), h3⟩, h2, dead⟩

theorem Inv.run {w : World} (h : Inv w) (op : Op) : ∃ w', op.run w = some w' ∧ Inv w' := by
  cases op with
  | start path a => exact ⟨_, rfl, h.start path a⟩
  | stop how => obtain ⟨w', h1, h2, _⟩ := stopAll_ok h how; exact ⟨w', h1, h2⟩
  | exit pid => exact ⟨_, rfl, h.endProc pid⟩

theorem Inv.after {w : World} (h : Inv w) (ops : List Op) : ∃ w', w.after ops = some w' ∧ Inv w' := by
  induction ops generalizing w with
  | nil => exact ⟨w, rfl, h⟩
  | cons op ops ih =>
    obtain ⟨w1, h1, h2⟩ := h.run op
    obtain ⟨w2, h3, h4⟩ := ih h2
    exact ⟨w2, by simp only [World.after, h1]; exact h3, h4⟩

theorem Inv.of_after {w : World} {ops : List Op} (h : World.init.after ops = some w) : Inv w := by
  obtain ⟨w', h1, h2⟩ := Inv.init.after ops
  rw [h1] at h; cases h; exact h2

theorem after_append (l l' : List Op) (v : World) : v.after (l ++ l') = (v.after l).bind (fun u => u.after l') := by
  induction l generalizing v with
  | nil => rfl
  | cons op l ih =>
    simp only [World.after, List.cons_append]
    cases op.run v with
    | none => rfl
    | some u => exact ih u

/-- C49: whatever has happened in a session, there is at most one live process for a path. -/
theorem C49_one (ops : List Op) (w : World) (h : World.init.after ops = some w) (path : Str) (a b : Nat) (ha : Live w path a)
    (hb : Live w path b) : a = b := by
  have hv := Inv.of_after h
  obtain ⟨i, p, h1, h2, h3, _⟩ := hv.live path a ha
  obtain ⟨j, q, h4, h5, h6, _⟩ := hv.live path b hb
  have := reg_inj hv.keys h1 h4
  subst this
  rw [h2] at h5; cases h5
  exact Option.some.inj (h3.symm.trans h6)

/-- C49: asking for the functions of a plugin that has a live process gives some, and changes nothing, whatever would happen
if it were started again. -/
theorem C49_running (ops : List Op) (w : World) (h : World.init.after ops = some w) (path : Str) (pid : Nat) (hl : Live w path pid)
    (a : Answer) : ∃ m, startPlugin path a w = (.ok m, w) := by
  have hv := Inv.of_after h
  obtain ⟨i, p, h1, h2, h3, m, h4⟩ := hv.live path pid hl
  rcases startPlugin_cases hv path a with ⟨j, q, b1, b2, e⟩ | ⟨hn, _⟩
  · have := reg_inj hv.keys h1 b1
    subst this
    rw [h2] at b2; cases b2
    exact ⟨m, by rw [e, h4]⟩
  · exact absurd h1 (hn i)

/-- C50: whatever has happened in a session, `KillPlugins` returns, and no process is live then that the session has ever
started. -/
theorem C50_stopped (ops : List Op) (how : Nat → Ending) : ∃ w, World.init.after (ops ++ [.stop how]) = some w ∧
    ∀ p ∈ w.procs, p.live = false := by
  obtain ⟨w, h1, h2⟩ := Inv.init.after ops
  obtain ⟨w', h3, h4, h5, h6⟩ := stopAll_ok h2 how
  refine ⟨w', by rw [after_append, h1]; simp [World.after, Op.run, h3], fun p hp => ?_⟩
  obtain ⟨n, hn, rfl⟩ := List.getElem_of_mem hp
  cases hl : w'.procs[n].live with
  | false => rfl
  | true => exact absurd ⟨hn, hl, rfl⟩ (h6 w'.procs[n].path n)

/-- C50: after `TryWithParent` and `DoWithParent` no process is live, whatever the consumer has done. -/
theorem C50_with_session (ops : List Op) (how : Nat → Ending) : ∃ w, withSession ops how = some w ∧ ∀ p ∈ w.procs, p.live = false := by
  obtain ⟨w, h1, h2⟩ := C50_stopped ops how
  refine ⟨w, ?_, h2⟩
  rw [← h1, after_append, withSession]
  congr 1
  funext u
  simp only [World.after, Op.run]
  cases stopAll how u <;> rfl

/-- C50: if the start of a plugin fails, no matter where, no process is live for its path. -/
theorem C50_failed (ops : List Op) (w : World) (h : World.init.after ops = some w) (path : Str) (a : Answer) (e : Problem)
    (he : (startPlugin path a w).1 = .error e) (pid : Nat) : ¬ Live (startPlugin path a w).2 path pid := by
  intro hl
  have hv := Inv.of_after h
  obtain ⟨i, p, a1, a2, a3, m, a4⟩ := (hv.start path a).live path pid hl
  rcases startPlugin_cases hv path a with ⟨j, q, b1, b2, e'⟩ | ⟨hn, ⟨e', b⟩ | ⟨e', b⟩ | ⟨r, q, b, b', c1, c2, c3, c4, c5, c6⟩⟩
  · rw [e'] at he a1 a2
    have := reg_inj hv.keys a1 b1
    subst this
    rw [a2] at b2; cases b2
    rw [a4] at he; exact nomatch he
  · rw [b] at a1; exact hn i a1
  · rw [b] at a1; exact hn i a1
  · rw [b'] at he a1 a2 hl
    rcases List.mem_cons.mp a1 with e1 | a1
    · cases e1
      cases b with
      | true => obtain ⟨m, d1, _⟩ := c5 rfl; rw [d1] at he; exact nomatch he
      | false =>
        simp at a2; subst a2
        rw [c4] at a3; cases a3
        obtain ⟨x, y, z⟩ := hl
        simp at y
    · exact hn i a1

/-- C51: whatever happens in a session, nothing waits forever for the lock of a plugin, and none is killed twice. -/
theorem C51_once (ops : List Op) : ∃ w, World.init.after ops = some w ∧ ∀ p ∈ w.plugins, p.kills ≤ 1 := by
  obtain ⟨w, h1, h2⟩ := Inv.init.after ops
  refine ⟨w, h1, fun p hp => ?_⟩
  obtain ⟨i, hi, rfl⟩ := List.getElem_of_mem hp
  exact h2.kills i _ (List.getElem?_eq_getElem hi)

/-- What C51 is about: a plugin that is killed twice would keep its lock, and a third `kill` would not return. -/
theorem kill_thrice (p : Plugin) (hl : p.locked = false) (pid : Nat) (hp : p.process = some pid) (ps : List Proc) (r : List (Str × Nat)) :
    (((kill 0 .graceful { procs := ps, plugins := [p], reg := r }).bind (kill 0 .graceful)).bind (kill 0 .graceful)).isNone = true := by
  simp [kill, hl, hp]

/-- The meta-data of a plugin that is in order. -/
def goodMeta : Meta :=
  { version := some 1, address := some "addr".toList, network := none,
    functions := some [("data_hash".toList, some [some "f".toList]), ("lookup_key".toList, some [some "g".toList])] }

/-- Not vacuous: two plugins are started, one is asked for again, a third fails, another announces functions that are none,
all are stopped, and one is started again. -/
example : (World.init.after [.start "/a".toList (.answered goodMeta), .start "/b".toList (.answered goodMeta), .start "/a".toList .timeout,
      .start "/c".toList .timeout, .start "/d".toList (.answered { goodMeta with functions := some [("x".toList, none)] }), .exit 1,
      .stop (fun _ => .late), .start "/a".toList (.answered goodMeta)]).any
    (fun w => w.procs.map (fun p => (p.path, p.live)) = [("/a".toList, false), ("/b".toList, false), ("/c".toList, false),
      ("/d".toList, false), ("/a".toList, true)] ∧ w.plugins.map Plugin.kills = [1, 1, 1, 0]) = true := by decide +kernel

/-- A plugin whose process has ended by itself is not started again: its functions are those of a process that is no more. -/
theorem C49_not_restarted : (World.init.after [.start "/a".toList (.answered goodMeta), .exit 0, .start "/a".toList (.answered goodMeta)]).any
    (fun w => w.procs.map Proc.live = [false] ∧ (startPlugin "/a".toList .timeout w).1.isOk) = true := by decide +kernel

end Hiera.Plugin
