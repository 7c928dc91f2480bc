/- C46, C47: the cache of the top provider. -/
import Verif.Model.Cache
import Mathlib.Data.List.Basic
import Mathlib.Data.Fintype.Basic

set_option autoImplicit false

namespace Hiera.Cache
open Hiera.Conc (upd)

/-- What a call stores for a key, if anything. -/
def Spec.stores (toStr : Value → Str) (k : Str) : Op → Option (Option Value)
  | .cache k' v => if k' = k then some v else none
  | .cacheAll es => (es.filter (fun e => toStr e.1 = k)).getLast?.map (fun e => some e.2)
  | .cachedValue _ => none
  | .cachedEntries => none

/-- What the invocations of session `i` have stored most recently for a key, if anything, where `h` are all calls in their
order. -/
def Spec.latest (toStr : Value → Str) (i : Nat) (k : Str) (h : List (Nat × Op)) : Option (Option Value) :=
  (h.filterMap (fun c => if c.1 = i then stores toStr k c.2 else none)).getLast?

open Spec

variable {toStr : Value → Str}

theorem load_store (k k' : Str) (v : Option Value) (m : SyncMap) :
    load k (store k' v m) = if k' = k then some v else load k m := by
  induction m with
  | nil => grind [store, load]
  | cons e m ih => grind [store, load]

theorem load_cacheAll (k : Str) (es : Entries) (m : SyncMap) :
    load k (cacheAll toStr es m) = ((es.filter (fun e => toStr e.1 = k)).getLast?.map (fun e => some e.2)).or (load k m) := by
  unfold cacheAll
  induction es generalizing m with
  | nil => rfl
  | cons e es ih =>
    rw [List.foldl_cons, ih, load_store]
    by_cases h : toStr e.1 = k
    · rw [List.filter_cons_of_pos (by simpa using h), List.getLast?_cons]
      cases (es.filter (fun e => decide (toStr e.1 = k))).getLast? <;> simp [h]
    · rw [List.filter_cons_of_neg (by simpa using h)]
      simp [h]

theorem load_run (k : Str) (op : Op) (m : SyncMap) : load k (op.run toStr m).2 = (stores toStr k op).or (load k m) := by
  cases op with
  | cache k' v =>
    simp only [Op.run, cache, loadOrStore, stores]
    cases hl : load k' m <;> simp only [load_store] <;> by_cases h : k' = k <;> simp [h]
  | cacheAll es => exact load_cacheAll k es m
  | cachedValue k' => rfl
  | cachedEntries => rfl

theorem getLast?_cons_or {α : Type} (a : α) (l : List α) : (a :: l).getLast? = l.getLast?.or (some a) := by
  rw [List.getLast?_cons]; cases l.getLast? <;> rfl

theorem load_after (i : Nat) (k : Str) (h : List (Nat × Op)) (c : Caches) :
    load k (Caches.after toStr c h i) = (latest toStr i k h).or (load k (c i)) := by
  unfold latest
  induction h generalizing c with
  | nil => rfl
  | cons x h ih =>
    obtain ⟨j, op⟩ := x
    simp only [Caches.after, ih, Caches.run]
    by_cases hj : j = i
    · subst hj
      simp only [upd, ↓reduceIte, load_run]
      cases hs : stores toStr k op with
      | none => rw [List.filterMap_cons_none (by simp [hs])]; rfl
      | some v =>
        rw [List.filterMap_cons_some (b := v) (by simp [hs]), getLast?_cons_or]
        cases (h.filterMap _).getLast? <;> rfl
    · rw [List.filterMap_cons_none (by simp [hj])]
      simp [upd, Ne.symm hj]

theorem load_history (i : Nat) (k : Str) (h : List (Nat × Op)) :
    load k (Caches.after toStr (fun _ => []) h i) = latest toStr i k h := by
  rw [load_after]; exact Option.or_none

/-- C46: after any calls of any invocations of any sessions, `CachedValue` gives what invocations of the same session have
stored most recently for that key. -/
theorem C46_cached (h : List (Nat × Op)) (i : Nat) (k : Str) (v : Value) (hl : latest toStr i k h = some (some v)) :
    ((Caches.after toStr (fun _ => []) h).run toStr i (.cachedValue k)).1 = .ok (.cached (some v)) := by
  simp only [Caches.run, Op.run, cachedValue, load_history, hl, assertValue]

/-- C46: it gives nothing if they have stored nothing for that key. -/
theorem C46_absent (h : List (Nat × Op)) (i : Nat) (k : Str) (hl : latest toStr i k h = none) :
    ((Caches.after toStr (fun _ => []) h).run toStr i (.cachedValue k)).1 = .ok (.cached none) := by
  simp only [Caches.run, Op.run, cachedValue, load_history, hl]

/-- C46: after any calls, `Cache` gives the value that it replaces. -/
theorem C46_replaced (h : List (Nat × Op)) (i : Nat) (k : Str) (v : Value) (w : Option Value)
    (hl : latest toStr i k h = some (some v)) :
    ((Caches.after toStr (fun _ => []) h).run toStr i (.cache k w)).1 = .ok (.replaced (some v)) := by
  simp only [Caches.run, Op.run, cache, loadOrStore, load_history, hl, assertValue]

/-- C46: it gives nothing if there was none. -/
theorem C46_new (h : List (Nat × Op)) (i : Nat) (k : Str) (w : Option Value) (hl : latest toStr i k h = none) :
    ((Caches.after toStr (fun _ => []) h).run toStr i (.cache k w)).1 = .ok (.replaced none) := by
  simp only [Caches.run, Op.run, cache, loadOrStore, load_history, hl]

theorem keys_store (k : Str) (v : Option Value) (m : SyncMap) (x : Str) :
    x ∈ (store k v m).map Prod.fst ↔ x = k ∨ x ∈ m.map Prod.fst := by
  induction m with
  | nil => simp [store]
  | cons e m ih =>
    obtain ⟨k1, v1⟩ := e
    by_cases h : k = k1
    · subst h; simp [store]
    · simp only [store, if_neg h, List.map_cons, List.mem_cons, ih]; tauto

theorem nodup_store {k : Str} {v : Option Value} {m : SyncMap} (h : (m.map Prod.fst).Nodup) : ((store k v m).map Prod.fst).Nodup := by
  induction m with
  | nil => simp [store]
  | cons e m ih =>
    obtain ⟨k1, v1⟩ := e
    rw [List.map_cons, List.nodup_cons] at h
    by_cases hk : k = k1
    · subst hk; simp only [store, ↓reduceIte, List.map_cons, List.nodup_cons]; exact h
    · simp only [store, if_neg hk, List.map_cons, List.nodup_cons]
      refine ⟨fun hm => ?_, ih h.2⟩
      rcases (keys_store k v m k1).mp hm with h1 | h1
      · exact hk h1.symm
      · exact h.1 h1

theorem nodup_run {op : Op} {m : SyncMap} (h : (m.map Prod.fst).Nodup) : ((op.run toStr m).2.map Prod.fst).Nodup := by
  cases op with
  | cache k v =>
    simp only [Op.run, cache, loadOrStore]
    cases load k m <;> exact nodup_store h
  | cacheAll es =>
    simp only [Op.run, cacheAll]
    induction es generalizing m with
    | nil => exact h
    | cons e es ih => exact ih (nodup_store h)
  | cachedValue k => exact h
  | cachedEntries => exact h

theorem nodup_after (h : List (Nat × Op)) (c : Caches) (hc : ∀ i, ((c i).map Prod.fst).Nodup) (i : Nat) :
    ((Caches.after toStr c h i).map Prod.fst).Nodup := by
  induction h generalizing c with
  | nil => exact hc i
  | cons x h ih =>
    refine ih _ fun j => ?_
    simp only [Caches.run, upd]
    split
    · exact nodup_run (hc _)
    · exact hc j

theorem mem_load {m : SyncMap} (hm : (m.map Prod.fst).Nodup) (k : Str) (v : Option Value) : (k, v) ∈ m ↔ load k m = some v := by
  induction m with
  | nil => simp [load]
  | cons e m ih =>
    obtain ⟨k1, v1⟩ := e
    rw [List.map_cons, List.nodup_cons] at hm
    simp only [load, List.mem_cons, Prod.mk.injEq]
    by_cases h : k = k1
    · subst h
      simp only [true_and, ↓reduceIte, Option.some.injEq]
      exact ⟨fun h => h.elim Eq.symm (fun h => absurd (List.mem_map_of_mem (f := Prod.fst) h) hm.1), fun h => .inl h.symm⟩
    · simp only [h, false_and, false_or, ↓reduceIte]; exact ih hm.2

theorem assertEntries_ok {m : SyncMap} (h : ∀ e ∈ m, e.2 ≠ none) :
    ∃ es, assertEntries m = .ok es ∧ m = es.map (fun e => (e.1, some e.2)) := by
  induction m with
  | nil => exact ⟨[], rfl, rfl⟩
  | cons e m ih =>
    obtain ⟨k, v⟩ := e
    obtain ⟨es, h1, h2⟩ := ih fun e he => h e (List.mem_cons_of_mem _ he)
    cases v with
    | none => exact absurd rfl (h (k, none) List.mem_cons_self)
    | some v => exact ⟨(k, v) :: es, by simp only [assertEntries, assertValue, h1], by rw [h2]; rfl⟩

/-- C46: after any calls, `CachedEntries` gives each key that invocations of the session have stored something for once,
with what they have stored most recently, and nothing else. -/
theorem C46_entries (h : List (Nat × Op)) (i : Nat) (hn : ∀ k, latest toStr i k h ≠ some none) :
    ∃ es, ((Caches.after toStr (fun _ => []) h).run toStr i .cachedEntries).1 = .ok (.entries es) ∧
      (es.map Prod.fst).Nodup ∧ ∀ k v, (k, v) ∈ es ↔ latest toStr i k h = some (some v) := by
  have hd := nodup_after (toStr := toStr) h (fun _ => []) (fun _ => List.nodup_nil) i
  obtain ⟨es, h1, h2⟩ := assertEntries_ok (m := Caches.after toStr (fun _ => []) h i) (by
    rintro ⟨k, v⟩ he hv
    subst hv
    exact hn k ((load_history i k h).symm.trans ((mem_load hd k none).mp he)))
  refine ⟨es, by simp only [Caches.run, Op.run, cachedEntries, h1], ?_, fun k v => ?_⟩
  · rw [h2, List.map_map] at hd; exact hd
  · rw [← load_history, ← mem_load hd, h2]
    simp

/-- C46 is false of nil: a value of nil can be stored, but what is stored then cannot be had again, nor be replaced in
peace. -/
theorem C46_false (k : Str) (i : Nat) (w : Option Value) :
    latest toStr i k [(i, .cache k none)] = some none ∧
    ((Caches.after toStr (fun _ => []) [(i, .cache k none)]).run toStr i (.cachedValue k)).1 = .panic .typeAssertion ∧
    ((Caches.after toStr (fun _ => []) [(i, .cache k none)]).run toStr i (.cache k w)).1 = .panic .typeAssertion := by
  have hl : latest toStr i k [(i, .cache k none)] = some none := by simp [latest, stores]
  refine ⟨hl, ?_, ?_⟩
  · simp only [Caches.run, Op.run, cachedValue, load_history, hl, assertValue]
  · simp only [Caches.run, Op.run, cache, loadOrStore, load_history, hl, assertValue]

/-- Not vacuous: two sessions, three keys, and a store by `CacheAll`. -/
example : (latest (fun | .str s => s | _ => []) 1 "a".toList
    [(1, .cache "a".toList (some (.int 1))), (1, .cacheAll [(.str "b".toList, .int 5), (.str "a".toList, .int 2)]),
     (2, .cache "a".toList (some (.int 3))), (1, .cache "c".toList (some (.int 4)))] matches some (some (.int 2))) = true := by
  decide +kernel

/-! ### Concurrent calls -/

variable {V : Type} {n : Nat} {val : Fin n → V}

/-- Has come to its end, or is about to. -/
def Spec.Begun : PC V → Prop
  | .start => False
  | _ => True

/-- C47 is false: two calls that overlap replace the same value, and the value that one of them has stored is given to
nobody. -/
theorem C47_false : ∃ s : Sys Nat 3, Sys.Reach (fun i => i.val) Sys.init s ∧ s.pc 0 = .done none ∧ s.pc 1 = .done (some 0) ∧
    s.pc 2 = .done (some 0) ∧ s.cell = some 2 :=
  ⟨_, .step 2 (.step 1 (.step 2 (.step 1 (.step 0 .refl rfl) rfl) rfl) rfl) rfl, rfl, rfl, rfl, rfl⟩

structure Inv (val : Fin n → V) (s : Sys V n) : Prop where
  cell : ∀ v, s.cell = some v → ∃ j, Begun (s.pc j) ∧ v = val j
  storing : ∀ i v, s.pc i = .storing v → s.cell ≠ none ∧ ∃ j, j ≠ i ∧ Begun (s.pc j) ∧ v = val j
  done : ∀ i v, s.pc i = .done (some v) → s.cell ≠ none ∧ ∃ j, j ≠ i ∧ Begun (s.pc j) ∧ v = val j
  empty : s.cell = none → ∀ i, s.pc i = .start
  full : s.cell ≠ none → ∃ i, s.pc i = .done none ∧ ∀ j, s.pc j = .done none → j = i

theorem Inv.init : Inv val (Sys.init : Sys V n) where
  cell := fun _ h => nomatch h
  storing := fun _ _ h => nomatch h
  done := fun _ _ h => nomatch h
  empty := fun _ _ => rfl
  full := fun h => absurd rfl h

theorem Inv.step {s t : Sys V n} {i : Fin n} (h : Inv val s) (hs : s.step val i = some t) : Inv val t := by
  obtain ⟨h1, h2, h3, h4, h5⟩ := h
  unfold Sys.step at hs
  cases hp : s.pc i <;> rw [hp] at hs <;> simp only at hs
  all_goals (try (split at hs)) <;> simp only [Option.some.injEq, reduceCtorEq] at hs <;> subst hs
  all_goals refine ⟨?_, ?_, ?_, ?_, fun _ => ?_⟩
  all_goals first
    | grind [upd, Begun]
    | (refine ⟨i, by simp [upd], fun j hj => ?_⟩; grind [upd])
    | (obtain ⟨w, hw1, hw2⟩ := h5 (by grind)
       refine ⟨w, by grind [upd], fun j hj => ?_⟩; grind [upd])

theorem Inv.reach {s t : Sys V n} (h : Inv val s) (hr : Sys.Reach val s t) : Inv val t := by
  induction hr with
  | refl => exact h
  | step i _ hs ih => exact ih.step hs

/-- C47, partially: in every schedule, a value that a call gives as the replaced one has been passed to another call that
has begun before. Missing: that all but the last are given, and once only, which is false (`C47_false`). -/
theorem C47_origin_partial {s : Sys V n} (h : Sys.Reach val Sys.init s) (i : Fin n) (v : V) (hi : s.pc i = .done (some v)) :
    ∃ j, j ≠ i ∧ Begun (s.pc j) ∧ v = val j :=
  ((Inv.init.reach h).done i v hi).2

/-- C47, partially: in every schedule, exactly one call finds that there was no value before, as soon as a call has begun. -/
theorem C47_first_partial {s : Sys V n} (h : Sys.Reach val Sys.init s) (i : Fin n) (hi : Begun (s.pc i)) :
    ∃ j, s.pc j = .done none ∧ ∀ k, s.pc k = .done none → k = j := by
  have hv := Inv.init.reach h
  refine hv.full fun hc => ?_
  rw [hv.empty hc i] at hi
  exact hi

/-- Calls one after the other, in this order: each does its steps until its end. -/
def Spec.inTurn (val : Fin n → V) (s : Sys V n) : List (Fin n) → Option (Sys V n)
  | [] => some s
  | i :: l => match s.step val i with
    | none => none
    | some t => match t.step val i with
      | none => Spec.inTurn val t l
      | some u => Spec.inTurn val u l

theorem inTurn_reach {s t u : Sys V n} {l : List (Fin n)} (hr : Sys.Reach val u s) (h : inTurn val s l = some t) :
    Sys.Reach val u t := by
  induction l generalizing s with
  | nil => exact Option.some.inj h ▸ hr
  | cons i l ih =>
    simp only [inTurn] at h
    cases h1 : s.step val i with
    | none => rw [h1] at h; exact nomatch h
    | some a =>
      rw [h1] at h
      simp only at h
      cases h2 : a.step val i with
      | none => rw [h2] at h; exact ih (.step i hr h1) h
      | some b => rw [h2] at h; exact ih (.step i (.step i hr h1) h2) h

theorem inTurn_spec {l : List (Fin n)} (hl : l.Nodup) (s : Sys V n) (hs : ∀ i ∈ l, s.pc i = .start) :
    ∃ t, inTurn val s l = some t ∧ (∀ i, i ∉ l → t.pc i = s.pc i) ∧
      (∀ (m : Nat) (hm : m < l.length), t.pc l[m] = .done (match m with | 0 => s.cell | m' + 1 => some (val (l[m']'(by omega))))) ∧
      t.cell = (l.getLast?.map val).or s.cell := by
  induction l generalizing s with
  | nil => exact ⟨s, rfl, fun _ _ => rfl, fun m hm => absurd hm (Nat.not_lt_zero _), rfl⟩
  | cons i l ih =>
    rw [List.nodup_cons] at hl
    have hi := hs i List.mem_cons_self
    obtain ⟨a, ha, hp, hc⟩ : ∃ a : Sys V n, inTurn val s (i :: l) = inTurn val a l ∧ a.pc = upd s.pc i (.done s.cell) ∧ a.cell = some (val i) := by
      cases hc : s.cell with
      | none =>
        refine ⟨{ pc := upd s.pc i (.done none), cell := some (val i) }, ?_, rfl, rfl⟩
        simp [inTurn, Sys.step, hi, hc, upd]
      | some old =>
        refine ⟨{ pc := upd s.pc i (.done (some old)), cell := some (val i) }, ?_, rfl, rfl⟩
        have : upd (upd s.pc i (.storing old)) i (.done (some old)) = upd s.pc i (.done (some old)) := by
          funext x; simp only [upd]; split <;> rfl
        rw [← this]
        simp [inTurn, Sys.step, hi, hc, upd]
    obtain ⟨t, h1, h2, h3, h4⟩ := ih hl.2 a (by
      intro j hj
      have hji : j ≠ i := fun e => hl.1 (e ▸ hj)
      rw [hp]; simp only [upd, hji, ↓reduceIte]; exact hs j (List.mem_cons_of_mem _ hj))
    refine ⟨t, ha.trans h1, fun j hj => ?_, fun m hm => ?_, ?_⟩
    · rw [List.mem_cons, not_or] at hj
      rw [h2 j hj.2, hp]; simp [upd, hj.1]
    · cases m with
      | zero => simp only [List.getElem_cons_zero]; rw [h2 i hl.1, hp]; simp [upd]
      | succ m =>
        simp only [List.getElem_cons_succ]
        rw [h3 m (by simpa using hm)]
        cases m with
        | zero => simp [hc]
        | succ m => simp
    · rw [h4, hc, getLast?_cons_or]
      cases l.getLast? <;> simp

/-- C47, partially: of calls that do not overlap, each gives the value that was passed to the call before it, and the first
gives none. Thus, each value but the last is given by exactly one. -/
theorem C47_in_turn_partial {l : List (Fin n)} (hl : l.Nodup) (hv : Function.Injective val) :
    ∃ s, inTurn val Sys.init l = some s ∧ Sys.Reach val Sys.init s ∧ s.cell = l.getLast?.map val ∧
      ∀ (m : Nat) (hm : m < l.length), ∀ j, s.pc j = .done (some (val l[m])) ↔ l[m + 1]? = some j := by
  obtain ⟨s, h1, h2, h3, h4⟩ := inTurn_spec (val := val) hl Sys.init (fun _ _ => rfl)
  refine ⟨s, h1, inTurn_reach .refl h1, by rw [h4]; cases l.getLast?.map val <;> rfl, fun m hm j => ⟨fun hj => ?_, fun hj => ?_⟩⟩
  · by_cases hjl : j ∈ l
    · obtain ⟨k, hk, hkj⟩ := List.getElem_of_mem hjl
      subst hkj
      rw [h3 k hk] at hj
      cases k with
      | zero => exact absurd hj (by simp [Sys.init])
      | succ k =>
        simp only [PC.done.injEq, Option.some.injEq] at hj
        have hkm : k = m := (List.Nodup.getElem_inj_iff hl).mp (hv hj)
        subst hkm
        exact List.getElem?_eq_getElem hk
    · rw [h2 j hjl] at hj; exact nomatch hj
  · obtain ⟨hm1, rfl⟩ := List.getElem?_eq_some_iff.mp hj
    exact h3 (m + 1) hm1

/-- Not vacuous: three calls in turn. -/
example : (([2, 0, 1] : List (Fin 3)).Nodup) ∧
    (inTurn (fun i => i.val + 10) (Sys.init : Sys Nat 3) [2, 0, 1]).any
      (fun s => s.pc 2 = .done none ∧ s.pc 0 = .done (some 12) ∧ s.pc 1 = .done (some 10) ∧ s.cell = some 11) = true := by
  decide +kernel

end Hiera.Cache
