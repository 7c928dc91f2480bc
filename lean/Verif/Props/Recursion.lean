/- C29: lookups that depend on themselves. -/
import Verif.Model.Recursion
import Verif.Props.Strategy

set_option autoImplicit false

namespace Hiera
open Value Spec World

/-- What data is remembered by. -/
def Spec.placeName : Option Loc → Str
  | some l => l.resolved
  | none => []

/-- What the hierarchy is first asked for `r` is an interpolated lookup of a key whose first part is in `C`. -/
def Spec.LeadsTo (s : St) (rc : RCfg) (C : Str → Prop) (r : Str) : Prop :=
  ∃ (p : Prov) (loc : Option Loc) (rest : List (Prov × Option Loc)) (n : Str) (h : Entries) (e x name arg : Str) (k : Key),
    rc.providers.flatMap places = (p, loc) :: rest ∧ p.entry.function = some (.dataHash, n) ∧
    assoc (p, placeName loc) s.v.hashes = some h ∧
    Entries.getS h r = some (.str ("%{".toList ++ e ++ "}".toList)) ∧ '}' ∉ e ∧ Trimmed e x ∧ Call x name arg ∧
    (name = "lookup".toList ∨ name = "hiera".toList) ∧ newKey arg = .ok k ∧ C k.root

/-- A name that is a key as it stands. -/
def Spec.PlainName (r : Str) : Prop := r ≠ "lookup_options".toList ∧ ∃ k, newKey r = .ok k ∧ k.root = r

theorem provLookup_endless (E : Env) (n : Nat) (s : St) (ho : s.on = none) (rc : RCfg) (C : Str → Prop)
    (ih : ∀ (k : Key) (o : Entries), C k.root → (eval E n).lookup k o s = none) (r : Str) (h : LeadsTo s rc C r) (k : Key) (hk : k.root = r) :
    ∃ p loc rest, rc.providers.flatMap places = (p, loc) :: rest ∧ provLookup E (eval E n) p loc k s = none := by
  obtain ⟨p, loc, rest, m, h, e, x, name, arg, k', h1, h2, h3, h4, h5, h6, h7, h8, h9, h10⟩ := h
  refine ⟨p, loc, rest, h1, ?_⟩
  unfold provLookup
  rw [h2]
  simp only
  unfold dataHashLookup
  have hd : dataHash E p m loc s = some (.ok h, s) := by
    unfold dataHash
    have hv : view s = some (.ok s.v, s) := rfl
    rw [bind_ok hv]
    cases loc with
    | none => exact (congrArg (fun a : Option Entries => (match a with
        | some h => pure h
        | none => do
          let h ← callHash E p m (optionsFor p none)
          update (fun w => { w with hashes := ((p, []), h) :: w.hashes })
          pure h : M Entries) s) h3 :)
    | some l => exact (congrArg (fun a : Option Entries => (match a with
        | some h => pure h
        | none => do
          let h ← callHash E p m (optionsFor p (some l))
          update (fun w => { w with hashes := ((p, l.resolved), h) :: w.hashes })
          pure h : M Entries) s) h3 :)
  rw [bind_ok hd, hk, h4]
  simp only
  refine bind_none ?_
  rw [C16_lookup E n e x name arg h5 h6 h7 h8 s ho, h9, M.lift_ok_bind]
  exact bind_none (ih k' [] h10)

theorem hierarchy_endless (E : Env) (n : Nat) (s : St) (ho : s.on = none) (rc : RCfg) (C : Str → Prop)
    (ih : ∀ (k : Key) (o : Entries), C k.root → (eval E n).lookup k o s = none) (r : Str) (h : LeadsTo s rc C r) (k : Key) (hk : k.root = r)
    (st : Strategy) : mergeHierarchy E (eval E n) k rc.providers st s = none := by
  obtain ⟨p, loc, rest, h1, h2⟩ := provLookup_endless E n s ho rc C ih r h k hk
  cases hm : mergeHierarchy E (eval E n) k rc.providers st s with
  | none => rfl
  | some q =>
    obtain ⟨a, t⟩ := q
    exfalso
    by_cases hs : st = .first
    · subst hs
      have := (C30_order E n k rc.providers s t a ho).1 hm
      rw [h1] at this
      cases this with
      | hit h => rw [h2] at h; cases h
      | fail h => rw [h2] at h; cases h
      | miss h => rw [h2] at h; cases h
    · obtain ⟨r', ha, _⟩ := C31_asked E n k st hs rc.providers s t a ho hm
      rw [h1] at ha
      cases ha with
      | cons h => rw [h2] at h; cases h
      | fail h => rw [h2] at h; cases h
      | later h => rw [h2] at h; cases h

theorem config_known (E : Env) (rec : Rec) (s : St) (rc : RCfg) (m : Str) (hc : assoc E.configPath s.v.configs = some rc) :
    config E rec E.configPath m s = some (.ok rc, s) := by
  unfold config
  have hv : view s = some (.ok s.v, s) := rfl
  rw [bind_ok hv]
  have : (if E.configPath = [] then E.configPath else E.configPath) = E.configPath := by split <;> rfl
  rw [this, hc]
  rfl

/-- C29 is false, in general: if what is found first for each name in `C` is an interpolated lookup of a name in `C`, then
lookups of these names never end, whatever the merge strategy. (In particular if `C` has one name, or the names on a cycle.)
The state is one in which a value is being interpolated. -/
theorem C29_endless (E : Env) (s : St) (ht : E.top = .config) (ho : s.on = none) (hm : s.v.ic.mode = .data) (st : Strategy)
    (hs : s.v.ic.strategy = some st) (rc : RCfg) (hc : assoc E.configPath s.v.configs = some rc) (C : Str → Prop)
    (hn : ∀ r, C r → PlainName r) (h : ∀ r, C r → LeadsTo s rc C r) (n : Nat) (k : Key) (o : Entries) (hk : C k.root) :
    (eval E n).lookup k o s = none := by
  induction n generalizing k o with
  | zero => rfl
  | succ n ih =>
    show lookup E (eval E n) k o s = none
    obtain ⟨h1, k', h2, h3⟩ := hn _ hk
    unfold lookup
    rw [if_neg h1, ht]
    refine bind_none ?_
    show configAt E (eval E n) E.configPath o k.root [] s = none
    unfold configAt
    rw [bind_ok (config_known E _ s rc _ hc), h2, M.lift_ok_bind]
    have hv : view s = some (.ok s.v, s) := rfl
    rw [bind_ok hv, hm]
    simp only
    have hcur : currentStrategy s = some (.ok st, s) := by
      unfold currentStrategy
      rw [bind_ok hv, hs]
      rfl
    rw [bind_ok hcur]
    exact hierarchy_endless E n s ho rc C ih _ (h _ hk) k' h3 st

/-- C29: the same for a lookup by the user, in a state in which the configuration is known and has no lookup options. -/
theorem C29_endless_top (E : Env) (s : St) (ht : E.top = .config) (ho : s.on = none) (hm : s.v.ic.mode = .top)
    (rc : RCfg) (hc : assoc E.configPath s.v.configs = some rc) (hl : rc.lookupOptions = none) (C : Str → Prop)
    (hn : ∀ r, C r → PlainName r) (h : ∀ r, C r → LeadsTo s rc C r) (n : Nat) (k : Key) (hk : C k.root) :
    (eval E n).lookup k [] s = none := by
  cases n with
  | zero => rfl
  | succ n =>
    show lookup E (eval E n) k [] s = none
    obtain ⟨h1, k', h2, h3⟩ := hn _ hk
    unfold lookup
    rw [if_neg h1, ht]
    refine bind_none ?_
    show configAt E (eval E n) E.configPath [] k.root [] s = none
    unfold configAt
    rw [bind_ok (config_known E _ s rc _ hc), h2, M.lift_ok_bind]
    have hv : view s = some (.ok s.v, s) := rfl
    rw [bind_ok hv, hm]
    simp only
    have hopt : rc.optionsOf k' = none := by unfold RCfg.optionsOf; rw [hl]
    have hnil : Entries.getS [] "merge".toList = none := rfl
    rw [hopt, hnil, asking_top (o := none) (s := .first) (c := none) (by rintro m ⟨⟩) (by rintro v ⟨⟩)
      (.none rfl (by rintro m ⟨⟩)) .none .noOptions hm ho]
    rw [hierarchy_endless E n (asking s none .first (sensitiveTo E none)) ho rc C (fun k o hk => ?_) _ (h _ hk) k' h3 .first]
    exact C29_endless E (asking s none .first (sensitiveTo E none)) ht ho rfl .first rfl rc hc C hn h n k o hk

/-- Two values that refer to each other. -/
def cyclicWorld : Env := two [(s "x", s "%{lookup('y')}"), (s "y", s "%{hiera('x')}")] []

theorem config_put (E : Env) (rec : Rec) (path m : Str) (s t : St) (rc : RCfg) (h : config E rec path m s = some (.ok rc, t)) :
    assoc (if path = [] then E.configPath else path) t.v.configs = some rc := by
  unfold config at h
  have hv : view s = some (.ok s.v, s) := rfl
  rw [bind_ok hv] at h
  generalize (if path = [] then E.configPath else path) = q at h ⊢
  cases ha : assoc q s.v.configs with
  | some rc' =>
    rw [ha] at h
    cases h
    exact ha
  | none =>
    rw [ha] at h
    simp only at h
    rw [bind_def] at h
    cases h1 : loadConfig E q s with
    | none => rw [h1] at h; cases h
    | some x =>
      obtain ⟨c | e, u⟩ := x
      · rw [h1] at h
        simp only at h
        rw [bind_def] at h
        cases h2 : resolve E rec c m u with
        | none => rw [h2] at h; cases h
        | some y =>
          obtain ⟨rc' | e, w⟩ := y
          · rw [h2] at h
            cases h
            simp [assoc]
          · rw [h2] at h; cases h
      · rw [h1] at h; cases h

theorem lookup_first_config (E : Env) (n : Nat) (k : Key) (s t : St) (rc : RCfg) (ht : E.top = .config)
    (hr : k.root ≠ "lookup_options".toList) (h : config E (eval E n) E.configPath [] s = some (.ok rc, t))
    (hc : assoc E.configPath t.v.configs = some rc) (h' : (eval E (n + 1)).lookup k [] t = none) :
    (eval E (n + 1)).lookup k [] s = none := by
  change lookup E (eval E n) k [] s = none
  change lookup E (eval E n) k [] t = none at h'
  unfold lookup at h' ⊢
  rw [if_neg hr] at h' ⊢
  have e : callLk E (eval E n) E.top [] k.root s = callLk E (eval E n) E.top [] k.root t := by
    rw [ht]
    show configAt E (eval E n) E.configPath [] k.root [] s = configAt E (eval E n) E.configPath [] k.root [] t
    unfold configAt
    rw [bind_ok h, bind_ok (config_known E _ t rc _ hc)]
  rw [bind_def, e]
  rw [bind_def] at h'
  exact h'

theorem zero_le_eval (E : Env) (n : Nat) : RecRel Le Le (eval E 0) (eval E n) := eval_le E (Nat.zero_le n)

/-- What the theorem needs to know of the state after loading the configuration. -/
def cyclicFacts : Option (Res RCfg × St) → Bool
  | some (.ok rc, t) => t.on.isNone && decide (t.v.ic.mode = .top) && rc.lookupOptions.isNone &&
    (match rc.providers.flatMap places with
      | (p, some l) :: _ => decide (p.entry.function = some (.dataHash, "yaml_data".toList)) &&
        decide (assoc (p, l.resolved) t.v.hashes = some [(s "x", s "%{lookup('y')}"), (s "y", s "%{hiera('x')}")])
      | _ => false)
  | _ => false

/-- C29 is false: a value that refers to itself by way of another makes the lookup go on forever, from a fresh invocation. -/
theorem C29_false (n : Nat) : ask cyclicWorld n "x" = none := by
  have hf : cyclicFacts (config cyclicWorld (eval cyclicWorld 0) cyclicWorld.configPath [] (st [])) = true := by decide +kernel
  cases hc : config cyclicWorld (eval cyclicWorld 0) cyclicWorld.configPath [] (st []) with
  | none => rw [hc] at hf; cases hf
  | some q =>
    obtain ⟨rc | e, t⟩ := q
    · rw [hc] at hf
      simp only [cyclicFacts, Bool.and_eq_true, decide_eq_true_eq, Option.isNone_iff_eq_none] at hf
      obtain ⟨⟨⟨h1, h2⟩, h3⟩, h4⟩ := hf
      cases n with
      | zero => rfl
      | succ n =>
        unfold ask
        rw [lookup_first_config cyclicWorld n ⟨"x".toList, [.name "x".toList]⟩ (st []) t rc rfl (by decide)
          ((Le.base.closed cyclicWorld Le.forConfig).config (zero_le_eval cyclicWorld n) _ _ _ _ hc) ?_ ?_]
        · rfl
        · have := config_put _ _ _ _ _ _ _ hc
          rw [if_neg (by decide)] at this
          exact this
        · have hput := config_put _ _ _ _ _ _ _ hc
          rw [if_neg (by decide)] at hput
          refine C29_endless_top cyclicWorld t rfl h1 h2 rc hput h3 (fun r => r = "x".toList ∨ r = "y".toList) ?_ ?_ _ _ (.inl rfl)
          · rintro r (rfl | rfl)
            · exact ⟨by decide, ⟨"x".toList, [.name "x".toList]⟩, by decide, rfl⟩
            · exact ⟨by decide, ⟨"y".toList, [.name "y".toList]⟩, by decide, rfl⟩
          · intro r hr
            split at h4
            · rename_i p l rest hpl
              simp only [Bool.and_eq_true, decide_eq_true_eq] at h4
              rcases hr with rfl | rfl
              · exact ⟨p, some l, rest, _, _, "lookup('y')".toList, "lookup('y')".toList, "lookup".toList, "y".toList,
                  ⟨"y".toList, [.name "y".toList]⟩, hpl, h4.1, h4.2, by decide, by decide,
                  ⟨⟨[], [], by simp, by simp, by simp⟩, by decide, by decide⟩,
                  ⟨by decide, by decide, by decide, '\'', .inl rfl, by decide, by decide⟩, .inl rfl, by decide, .inr rfl⟩
              · exact ⟨p, some l, rest, _, _, "hiera('x')".toList, "hiera('x')".toList, "hiera".toList, "x".toList,
                  ⟨"x".toList, [.name "x".toList]⟩, hpl, h4.1, h4.2, by decide, by decide,
                  ⟨⟨[], [], by simp, by simp, by simp⟩, by decide, by decide⟩,
                  ⟨by decide, by decide, by decide, '\'', .inl rfl, by decide, by decide⟩, .inr rfl, by decide, .inl rfl⟩
            · cases h4
    · rw [hc] at hf; cases hf

theorem interp_of_interpolate (E : Env) (rec : Rec) (allow : Bool) (v : Value) (s : St) (h : interpolate E rec allow v s = none) :
    interp E rec allow v s = none := by
  unfold interpolate at h
  rw [bind_def] at h
  cases hi : interp E rec allow v s with
  | none => rfl
  | some q =>
    obtain ⟨a | e, t⟩ := q
    · rw [hi] at h; cases h
    · rw [hi] at h; cases h

/-- C29 is false of variables, too: if each variable in `C` refers to one in `C`, then interpolating them never ends. -/
theorem C29_endless_variables (E : Env) (s : St) (ho : s.on = none) (C : Str → Prop) (hn : ∀ e, C e → '}' ∉ e ∧ Trimmed e e ∧
      (∀ name arg, ¬Call e name arg) ∧ emptyInterpolation e = false ∧ ∃ k, newKey e = .ok k ∧
        ∃ e', C e' ∧ s.v.ic.scope.get k.root = some (.str ("%{".toList ++ e' ++ "}".toList)))
    (n : Nat) (e : Str) (he : C e) (allow : Bool) : (eval E n).interp (.str ("%{".toList ++ e ++ "}".toList)) allow s = none := by
  induction n generalizing e with
  | zero => rfl
  | succ n ih =>
    obtain ⟨h1, h2, h3, h4, k, h5, e', h6, h7⟩ := hn e he
    refine interp_of_interpolate E (eval E n) allow _ s ?_
    have hna : ¬AliasCall e := by
      rintro ⟨x, name, arg, hx, hcall, _⟩
      rw [← trimmed_unique hx, trimmed_unique h2] at hcall
      exact h3 name arg hcall
    have hm : methodMatch e = none := by
      cases hm : methodMatch e with
      | none => rfl
      | some q => exact absurd ((methodMatch_iff _ _ _).1 hm) (h3 q.1 q.2)
    have := interpolate_single E (eval E n) allow h1 hna ho
    rw [show "%{".toList ++ e ++ "}".toList = '%' :: '{' :: e ++ ['}'] from rfl, this]
    refine bind_none ?_
    unfold exprOut
    rw [trimmed_unique h2, h4]
    simp only [Bool.false_eq_true, if_false]
    have hg : getMethodAndData e allow = .ok (.scope, e) := by unfold getMethodAndData; rw [hm]
    rw [hg, M.lift_ok_bind]
    simp only
    refine bind_none ?_
    unfold interpInScope
    rw [h5, M.lift_ok_bind]
    have hv : view s = some (.ok s.v, s) := rfl
    rw [bind_ok hv, h7]
    exact bind_none (ih e' h6)

example (n : Nat) (allow : Bool) : (eval cyclicWorld n).interp (s "%{a}") allow (st [(s "a", s "%{b}"), (s "b", s "%{a}")]) = none := by
  refine C29_endless_variables cyclicWorld (st [(s "a", s "%{b}"), (s "b", s "%{a}")]) rfl (fun e => e = "a".toList ∨ e = "b".toList) ?_
    n "a".toList (.inl rfl) allow
  have hc : ∀ c : Char, ∀ name arg, ¬Call [c] name arg := by
    rintro c name arg ⟨h1, _, _, q, _, _, h⟩
    have := congrArg List.length h
    simp at this
    omega
  have htr : ∀ c : Char, c ∉ whiteSpace → Trimmed [c] [c] := by
    intro c hs
    exact ⟨⟨[], [], by simp, by simp, by simp⟩, by simp [hs], by simp [hs]⟩
  rintro e (rfl | rfl)
  · exact ⟨by decide, htr 'a' (by decide), hc 'a', by decide, ⟨"a".toList, [.name "a".toList]⟩, by decide, "b".toList, .inr rfl, by decide⟩
  · exact ⟨by decide, htr 'b' (by decide), hc 'b', by decide, ⟨"b".toList, [.name "b".toList]⟩, by decide, "a".toList, .inl rfl, by decide⟩

/-! ### The guard -/

/-- Lookups of keys within each other, if they were guarded. -/
def Spec.within : List Str → List Str → Option (Res Unit × List Str)
  | [], stack => some (.ok (), stack)
  | k :: ks, stack => withKey k (within ks) stack

/-- C29, what holds: a guard that would detect the repetition of a key exists (but nothing uses it). Keys that are looked up
within each other are let through iff none occurs twice, and the stack is as it was afterwards either way. -/
theorem C29_guard_partial (ks stack : List Str) (hs : stack.Nodup) :
    ∃ r, within ks stack = some (r, stack) ∧ (r = .ok () ↔ (stack ++ ks).Nodup) := by
  induction ks generalizing stack with
  | nil => exact ⟨_, rfl, by simpa using hs⟩
  | cons k ks ih =>
    unfold within withKey
    by_cases hk : k ∈ stack
    · rw [if_pos hk]
      refine ⟨_, rfl, by simp, fun h => ?_⟩
      exact absurd rfl (List.nodup_append.1 h |>.2.2 k hk k (by simp))
    · rw [if_neg hk]
      obtain ⟨r, h1, h2⟩ := ih (stack ++ [k]) (List.nodup_append.2 ⟨hs, by simp, by
        intro a ha b hb
        simp only [List.mem_singleton] at hb
        subst hb
        rintro rfl
        exact hk ha⟩)
      rw [h1]
      refine ⟨r, by simp, ?_⟩
      rw [h2]
      simp

example : (within ["a".toList, "b".toList, "a".toList] []).map Prod.fst = some (.panic (.recursiveLookup ["a".toList, "b".toList])) ∧
    (within ["a".toList, "b".toList] []).map Prod.fst = some (.ok ()) := by decide +kernel

end Hiera
