/-
  Interpolation with plain variables is replacing them.
-/
import Verif.Lemmas.InterpCalls

set_option autoImplicit false
set_option linter.unusedSimpArgs false

namespace Hiera
open Spec

theorem emptyInterpolation_iff (x : Str) : emptyInterpolation x = true ↔ x ∈ emptyForms := by
  simp only [emptyInterpolation, emptyForms, Bool.or_eq_true, beq_iff_eq, List.mem_cons, List.not_mem_nil, or_false]
  tauto

theorem call_not_empty {x name arg : Str} (h : Call x name arg) : emptyInterpolation x = false := by
  have hm := (methodMatch_iff _ _ _).2 h
  cases h : emptyInterpolation x with
  | false => rfl
  | true =>
    exfalso
    simp only [emptyInterpolation, Bool.or_eq_true, beq_iff_eq] at h
    rcases h with ((((h | h) | h) | h) | h) | h <;> subst h <;> cases hm

theorem methodMatch_none {x : Str} (h : ∀ name arg, ¬Call x name arg) : methodMatch x = none := by
  cases hm : methodMatch x with
  | none => rfl
  | some p => exact absurd ((methodMatch_iff _ _ _).1 hm) (h _ _)

theorem emptyForms_no_call {x : Str} (h : x ∈ emptyForms) (name arg : Str) : ¬Call x name arg := by
  intro hc
  have := call_not_empty hc
  rw [(emptyInterpolation_iff x).2 h] at this
  cases this

theorem not_alias {e x : Str} (hx : Trimmed e x) (h : ∀ name arg, ¬Call x name arg) : ¬AliasCall e := by
  rintro ⟨x', n', a', hx', hc', hn'⟩
  rw [← trimmed_unique hx', trimmed_unique hx] at hc'
  exact h _ _ hc'

/-- The value of a variable expression, in a plain scope. -/
theorem interpInScope_plain (E : Env) (n : Nat) (allow : Bool) {x : Str} {k : Key} (hk : newKey x = .ok k) {st : St}
    (ho : st.on = none) (hp : PlainScope st.v.ic.scope.get) :
    interpInScope (eval E (n + 1)) x allow st = some (.ok ((st.v.ic.scope.get k.root).bind k.digPure), st) := by
  unfold interpInScope
  rw [hk, M.lift_ok_bind, bind_def]
  unfold view
  simp only
  cases hg : st.v.ic.scope.get k.root with
  | none => rfl
  | some v =>
    have hint : (eval E (n + 1)).interp v allow = pure (some v, false) := interp_plain E _ allow (hp _ _ hg)
    simp only [hint, M.pure_bind, Option.bind_some]
    rw [dig_quiet k v st ho]

theorem exprOut_var (E : Env) (n : Nat) (allow : Bool) {e x : Str} {k : Key} (hx : Trimmed e x) (hne : x ∉ emptyForms)
    (hc : ∀ name arg, ¬Call x name arg) (hk : newKey x = .ok k) {st : St} (ho : st.on = none)
    (hp : PlainScope st.v.ic.scope.get) :
    exprOut E (eval E (n + 1)) allow e st = some (.ok (E.textOf ((st.v.ic.scope.get k.root).bind k.digPure)), st) := by
  unfold exprOut
  rw [trimmed_unique hx]
  have he : ¬emptyInterpolation x = true := fun h => hne ((emptyInterpolation_iff x).1 h)
  have hmd : getMethodAndData x allow = .ok (.scope, x) := by unfold getMethodAndData; rw [methodMatch_none hc]
  simp only [he, hmd, M.lift_ok_bind, if_false, Bool.false_eq_true, reduceCtorEq]
  rw [bind_def, interpInScope_plain E n allow hk ho hp]
  rfl

theorem outs_replaced (E : Env) (n : Nat) (allow : Bool) {ts : List Tok} {t : Str} {st : St} (ho : st.on = none)
    (hp : PlainScope st.v.ic.scope.get) (h : Replaced E.toStr st.v.ic.scope.get ts t) :
    outs E (eval E (n + 1)) allow ts st = some (.ok t, st) := by
  induction h with
  | nil => rfl
  | chr _ ih => rw [outs, bind_def, ih]; rfl
  | empty hx he _ ih =>
    rename_i e x ts t _
    have : exprOut E (eval E (n + 1)) allow e = pure [] := by
      unfold exprOut
      rw [trimmed_unique hx, (emptyInterpolation_iff _).2 he]
      rfl
    rw [outs, this, M.pure_bind, bind_def, ih]
    rfl
  | missing hx he hc hk hg _ ih =>
    rw [outs, bind_def, exprOut_var E n allow hx he hc hk ho hp, hg]
    simp only
    rw [bind_def, ih]
    rfl
  | var hx he hc hk hg _ ih =>
    rw [outs, bind_def, exprOut_var E n allow hx he hc hk ho hp, hg]
    simp only
    rw [bind_def, ih]
    rfl

theorem replaced_no_call {text : Value → Str} {get : Str → Option Value} {ts : List Tok} {t : Str}
    (h : Replaced text get ts t) : ∀ e, Tok.expr e ∈ ts → ¬AliasCall e := by
  induction h with
  | nil => intro e he; cases he
  | chr _ ih => intro e he; rcases List.mem_cons.1 he with he | he; · cases he
                exact ih e he
  | empty hx he' _ ih =>
    intro e he
    rcases List.mem_cons.1 he with he | he
    · cases he; exact not_alias hx (emptyForms_no_call he')
    · exact ih e he
  | missing hx _ hc _ _ _ ih =>
    intro e he
    rcases List.mem_cons.1 he with he | he
    · cases he; exact not_alias hx hc
    · exact ih e he
  | var hx _ hc _ _ _ ih =>
    intro e he
    rcases List.mem_cons.1 he with he | he
    · cases he; exact not_alias hx hc
    · exact ih e he

theorem interpolate_replacedS (E : Env) (n : Nat) (allow : Bool) {s t : Str} {st : St} (ho : st.on = none)
    (hp : PlainScope st.v.ic.scope.get) (h : ReplacedS E.toStr st.v.ic.scope.get s t) :
    interpolate E (eval E (n + 1)) allow (.str s) st = some (.ok (some (.str t)), st) := by
  obtain ⟨ts, hs, hr⟩ := h
  rw [interpolate_str E _ allow hs (replaced_no_call hr) ho, bind_def, outs_replaced E n allow ho hp hr]
  rfl

theorem interpCfg_replaced (E : Env) (n : Nat) {s t : Str} {st : St} (ho : st.on = none)
    (hp : PlainScope st.v.ic.scope.get) (h : ReplacedS E.toStr st.v.ic.scope.get s t) :
    interpCfg E (eval E (n + 1)) s st = some (.ok t, st) := by
  have h1 := interpolate_replacedS E n false ho hp h
  rw [interpolate_eq, interp, bind_def] at h1
  unfold interpCfg
  rw [bind_def]
  cases hi : interpStr E (eval E (n + 1)) s false st with
  | none => rw [hi] at h1; cases h1
  | some o =>
    rw [hi] at h1
    rcases o with ⟨⟨r, b⟩ | _, u⟩
    · simp only [pure_def, Option.some.injEq, Prod.mk.injEq, Res.ok.injEq] at h1
      simp only [h1.1, h1.2]
      rfl
    · cases h1

/-- Replacing computed: nothing if there is a function call or a bad key. -/
def replaceToks (text : Value → Str) (get : Str → Option Value) : List Tok → Option Str
  | [] => some []
  | .chr c :: ts => (replaceToks text get ts).map (c :: ·)
  | .expr e :: ts =>
    let x := trimSpace e
    if x ∈ emptyForms then replaceToks text get ts
    else if (methodMatch x).isSome then none
    else match newKey x with
      | .panic _ => none
      | .ok k => match (get k.root).bind k.digPure with
        | none => replaceToks text get ts
        | some v => (replaceToks text get ts).map (text v ++ ·)

theorem replaceToks_iff (text : Value → Str) (get : Str → Option Value) (ts : List Tok) (t : Str) :
    replaceToks text get ts = some t ↔ Replaced text get ts t := by
  constructor
  · intro h
    induction ts generalizing t with
    | nil => cases h; exact .nil
    | cons a ts ih =>
      cases a with
      | chr c =>
        simp only [replaceToks, Option.map_eq_some_iff] at h
        obtain ⟨u, hu, rfl⟩ := h
        exact .chr (ih _ hu)
      | expr e =>
        simp only [replaceToks] at h
        have hx := trimSpace_trimmed e
        by_cases h1 : trimSpace e ∈ emptyForms
        · rw [if_pos h1] at h; exact .empty hx h1 (ih _ h)
        · rw [if_neg h1] at h
          by_cases h2 : (methodMatch (trimSpace e)).isSome = true
          · rw [if_pos h2] at h; cases h
          · rw [if_neg h2] at h
            have hc : ∀ name arg, ¬Call (trimSpace e) name arg := by
              intro name arg hc
              rw [(methodMatch_iff _ _ _).2 hc] at h2
              exact h2 rfl
            cases hk : newKey (trimSpace e) with
            | panic er => rw [hk] at h; cases h
            | ok k =>
              rw [hk] at h
              simp only at h
              cases hg : (get k.root).bind k.digPure with
              | none => rw [hg] at h; exact .missing hx h1 hc hk hg (ih _ h)
              | some v =>
                rw [hg] at h
                simp only [Option.map_eq_some_iff] at h
                obtain ⟨u, hu, rfl⟩ := h
                exact .var hx h1 hc hk hg (ih _ hu)
  · intro h
    have no : ∀ {x : Str}, (∀ name arg, ¬Call x name arg) → ¬(methodMatch x).isSome = true := by
      intro x hc
      rw [methodMatch_none hc]
      exact fun h => (nomatch h)
    induction h with
    | nil => rfl
    | chr _ ih => simp only [replaceToks, ih, Option.map_some]
    | empty hx he _ ih => simp only [replaceToks, trimmed_unique hx, if_pos he, ih]
    | missing hx he hc hk hg _ ih => simp only [replaceToks, trimmed_unique hx, if_neg he, if_neg (no hc), hk, hg, ih]
    | var hx he hc hk hg _ ih =>
      simp only [replaceToks, trimmed_unique hx, if_neg he, if_neg (no hc), hk, hg, ih, Option.map_some]

theorem replacedS_of {text : Value → Str} {get : Str → Option Value} {s t : Str}
    (h : replaceToks text get (tokens s) = some t) : ReplacedS text get s t :=
  ⟨tokens s, tokens_splits s, (replaceToks_iff _ _ _ _).1 h⟩

mutual
theorem interpolate_replacedV (E : Env) (n : Nat) (allow : Bool) {v w : Value} {st : St} (ho : st.on = none)
    (hp : PlainScope st.v.ic.scope.get) (h : ReplacedV E.toStr st.v.ic.scope.get v w) :
    interpolate E (eval E (n + 1)) allow v st = some (.ok (some w), st) := by
  cases h with
  | str h => exact interpolate_replacedS E n allow ho hp h
  | arr h =>
    obtain ⟨rs, hrs, hm⟩ := each_replacedL E n allow ho hp h
    rw [interpolate_arr, bind_def, hrs]
    simp only [pure_def, hm]
  | map hw h =>
    rw [interpolate_map E _ allow _ hw, bind_def, each_replacedE E n allow ho hp h]
    rfl
  | other h1 h2 h3 =>
    cases v with
    | str s => exact absurd rfl (h1 s)
    | arr s => exact absurd rfl (h2 s)
    | map s => exact absurd rfl (h3 s)
    | _ => simp only [interpolate, interp, M.pure_bind]; rfl
theorem each_replacedL (E : Env) (n : Nat) (allow : Bool) {vs ws : List Value} {st : St} (ho : st.on = none)
    (hp : PlainScope st.v.ic.scope.get) (h : ReplacedL E.toStr st.v.ic.scope.get vs ws) :
    ∃ rs, each (interpolate E (eval E (n + 1)) allow) vs st = some (.ok rs, st) ∧ rs.map (·.getD .null) = ws := by
  cases h with
  | nil => exact ⟨[], rfl, rfl⟩
  | cons h hs =>
    obtain ⟨rs, hrs, hm⟩ := each_replacedL E n allow ho hp hs
    refine ⟨some _ :: rs, ?_, by rw [List.map_cons, hm]; rfl⟩
    rw [each, bind_def, interpolate_replacedV E n allow ho hp h]
    simp only
    rw [bind_def, hrs]
    rfl
theorem each_replacedE (E : Env) (n : Nat) (allow : Bool) {vs ws : List (Value × Value)} {st : St} (ho : st.on = none)
    (hp : PlainScope st.v.ic.scope.get) (h : ReplacedE E.toStr st.v.ic.scope.get vs ws) :
    each (entryOf (interpolate E (eval E (n + 1)) allow)) vs st = some (.ok ws, st) := by
  cases h with
  | nil => rfl
  | cons hk hv hs =>
    rw [each, bind_def, entryOf, bind_def, interpolate_replacedV E n allow ho hp hk]
    simp only
    rw [bind_def, interpolate_replacedV E n allow ho hp hv]
    simp only [pure_def]
    rw [bind_def, each_replacedE E n allow ho hp hs]
    rfl
end

/-! ### Locations -/

theorem digPure_plain {k : Key} {v w : Value} (hv : Plain v) (h : k.digPure v = some w) : Plain w := by
  have memL : ∀ {vs : List Value}, PlainL vs → ∀ v ∈ vs, Plain v := by
    intro vs h
    induction vs with
    | nil => intro v hv; cases hv
    | cons a as ih =>
      cases h with
      | cons h1 h2 =>
        intro v hv
        rcases List.mem_cons.1 hv with rfl | hv
        · exact h1
        · exact ih h2 v hv
  have memE : ∀ {es : List (Value × Value)}, PlainE es → ∀ e ∈ es, Plain e.2 := by
    intro vs h
    induction vs with
    | nil => intro v hv; cases hv
    | cons a as ih =>
      cases h with
      | cons h1 h2 h3 =>
        intro v hv
        rcases List.mem_cons.1 hv with rfl | hv
        · exact h2
        · exact ih h3 v hv
  have seg : ∀ {p : Part} {v w : Value}, Plain v → digSegment p v = some w → Plain w := by
    intro p v w hv h
    unfold digSegment at h
    split at h
    · cases hv with
      | arr hl => 
        cases p with
        | name s => cases h
        | idx i =>
          by_cases hc : 0 ≤ i ∧ i < (‹List Value›.length : Int)
          · simp only [if_pos hc] at h; exact memL hl _ (List.mem_of_getElem? h)
          · simp only [if_neg hc] at h; cases h
    · cases hv with
      | map he =>
        obtain ⟨e, hm, _, h2⟩ := Entries.get_mem h
        rw [← h2]
        exact memE he e hm
    · cases h
  unfold Key.digPure at h
  generalize k.parts.tail = ps at h
  induction ps generalizing v with
  | nil => cases h; exact hv
  | cons p ps ih =>
    unfold digParts at h
    cases hd : digSegment p v with
    | none => rw [hd] at h; cases h
    | some u => rw [hd] at h; exact ih (seg hv hd) h

theorem resolveMapped_mappedTo (E : Env) (n : Nat) {key template dataDir : Str} {vs : List Value} {ls : List Loc} {st : St}
    (ho : st.on = none) (hp : PlainScope st.v.ic.scope.get) (hv : PlainL vs)
    (h : MappedTo E st.v.ic.scope.get key template dataDir vs ls) :
    resolveMapped E (eval E (n + 1)) key template dataDir vs st = some (.ok ls, st) := by
  induction h with
  | nil => rfl
  | cons hr _ ih =>
    rename_i v vs t ls _
    cases hv with
    | cons hv hvs =>
    have hget : ∀ k, (Scope.withVar st.v.ic.scope key v).get k = withVariable st.v.ic.scope.get key v k := by
      intro k
      simp only [Scope.withVar, withVariable]
      by_cases hk : key = k
      · rw [if_pos hk, if_pos hk.symm]
      · rw [if_neg hk, if_neg (fun h => hk h.symm)]
    have hgf : (Scope.withVar st.v.ic.scope key v).get = withVariable st.v.ic.scope.get key v := funext hget
    have hcfg := interpCfg_replaced E n (s := template) (t := t)
      (st := { st with v := { st.v with ic := { st.v.ic with scope := .withVar st.v.ic.scope key v } } }) ho
      (by
        intro k w hw
        simp only [hgf, withVariable] at hw
        split at hw
        · cases hw; exact hv
        · exact hp _ _ hw)
      (by simp only [hgf]; exact hr)
    rw [resolveMapped, bind_def]
    unfold view
    simp only
    rw [bind_def]
    have hdw : doWithScope (.withVar st.v.ic.scope key v) (do
        let r ← interpCfg E (eval E (n + 1)) template
        pure (join dataDir r)) st = some (.ok (join dataDir t), st) := by
      unfold doWithScope
      rw [bind_def]
      unfold view
      simp only
      rw [bind_def]
      unfold update
      simp only
      rw [bind_def, bind_def, hcfg]
      rfl
    rw [hdw]
    simp only
    rw [bind_def, ih hvs]
    rfl

theorem resolve_locatedAt (E : Env) (n : Nat) {dataDir : Str} {l : Loc} {ls : List Loc} {st : St}
    (ho : st.on = none) (hp : PlainScope st.v.ic.scope.get) (h : LocatedAt E st.v.ic.scope.get dataDir l ls) :
    l.resolve E (eval E (n + 1)) dataDir st = some (.ok ls, st) := by
  have plainBind : ∀ {k : Key} {v : Value}, (st.v.ic.scope.get k.root).bind k.digPure = some v → Plain v := by
    intro k v hv
    cases hg : st.v.ic.scope.get k.root with
    | none => rw [hg] at hv; cases hv
    | some u => rw [hg] at hv; exact digPure_plain (hp _ _ hg) hv
  cases h with
  | path h => unfold Loc.resolve; simp only; rw [bind_def, interpCfg_replaced E n ho hp h]; rfl
  | glob h => unfold Loc.resolve; simp only; rw [bind_def, interpCfg_replaced E n ho hp h]; rfl
  | uri h => unfold Loc.resolve; simp only; rw [bind_def, interpCfg_replaced E n ho hp h]; rfl
  | mapped hk hv hm =>
    have := plainBind hv
    unfold Loc.resolve
    simp only
    rw [bind_def, interpInScope_plain E n false hk ho hp, hv]
    cases this with
    | arr hl => exact resolveMapped_mappedTo E n ho hp hl hm
  | mapped1 hk hv hm =>
    have := plainBind hv
    unfold Loc.resolve
    simp only
    rw [bind_def, interpInScope_plain E n false hk ho hp, hv]
    exact resolveMapped_mappedTo E n ho hp (.cons this .nil) hm
  | unmapped hk h1 h2 =>
    unfold Loc.resolve
    simp only
    rw [bind_def, interpInScope_plain E n false hk ho hp]
    cases hv : (st.v.ic.scope.get _).bind (Key.digPure _) with
    | none => rfl
    | some v =>
      cases v with
      | arr vs => exact absurd hv (h1 vs)
      | str s => exact absurd hv (h2 s)
      | _ => rfl

theorem resolveLocs_locatedAll (E : Env) (n : Nat) {dataDir : Str} {ls rs : List Loc} {st : St}
    (ho : st.on = none) (hp : PlainScope st.v.ic.scope.get) (h : LocatedAll E st.v.ic.scope.get dataDir ls rs) :
    resolveLocs E (eval E (n + 1)) dataDir ls st = some (.ok rs, st) := by
  induction h with
  | nil => rfl
  | cons h _ ih =>
    rw [resolveLocs, bind_def, resolve_locatedAt E n ho hp h]
    simp only
    rw [bind_def, ih]
    rfl

end Hiera
