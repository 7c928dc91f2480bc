/-
  Properties of the strategy, options and conversion of a lookup.
-/
import Verif.Lemmas.Strategy
import Verif.Lemmas.World
import Verif.Props.Lookup

set_option autoImplicit false

namespace Hiera
open Spec Value World

/-! ### C33 -/

theorem hasPrefix_iff (p s : Str) : hasPrefix p s = true ↔ ∃ rest, s = p ++ rest := by
  induction p generalizing s with
  | nil => simp [hasPrefix]
  | cons c p ih =>
    cases s with
    | nil => simp [hasPrefix]
    | cons d s =>
      simp only [hasPrefix, Bool.and_eq_true, beq_iff_eq, ih, List.cons_append, List.cons.injEq]
      constructor
      · rintro ⟨rfl, r, rfl⟩; exact ⟨r, rfl, rfl⟩
      · rintro ⟨r, rfl, rfl⟩; exact ⟨rfl, r, rfl⟩

/-- C33: the lookup options that a configuration has for a key: those of the key's name, if they are a hash; and if the
configuration is that of a module, then only if the name starts with the name of the module and `::`. -/
theorem C33_options (rc : RCfg) (hw : ∀ lo, rc.lookupOptions = some lo → UniqueKeys lo) (k : Key) (m : Entries) :
    rc.optionsOf k = some m ↔ OptionsFor rc k.root m := by
  unfold RCfg.optionsOf OptionsFor
  cases hlo : rc.lookupOptions with
  | none => simp
  | some lo =>
    simp only [Option.some.injEq, exists_eq_left', ← hasPrefix_iff]
    have e : asMap (Entries.getS lo k.root) = some m ↔ (Value.str k.root, .map m) ∈ lo := by
      rw [← getS_iff (hw lo hlo)]
      cases Entries.getS lo k.root with
      | none => simp [asMap]
      | some v => cases v <;> simp [asMap]
    by_cases h : rc.moduleName = [] ∨ hasPrefix (rc.moduleName ++ "::".toList) k.root = true
    · rw [if_pos h, e]; exact ⟨fun h' => ⟨h', h⟩, fun h' => h'.1⟩
    · rw [if_neg h]; exact ⟨fun h' => (nomatch h'), fun h' => absurd h'.2 h⟩

/-- C33: in a module's configuration nothing applies to a key of another module, or of none. -/
theorem C33_no_leak (rc : RCfg) (hw : ∀ lo, rc.lookupOptions = some lo → UniqueKeys lo) (k : Key) (hm : rc.moduleName ≠ [])
    (hk : ∀ rest, k.root ≠ rc.moduleName ++ "::".toList ++ rest) : rc.optionsOf k = none := by
  cases h : rc.optionsOf k with
  | none => rfl
  | some m =>
    obtain ⟨lo, _, _, h1 | ⟨rest, h1⟩⟩ := (C33_options rc hw k m).1 h
    · exact absurd h1 hm
    · exact absurd h1 (hk rest)

/-- C33: the lookup options of a configuration are what the deep merge of the values for `lookup_options` over its
hierarchy gives, if that is a hash, and none otherwise; the name of the module is that which it was resolved for. -/
theorem C33_source (E : Env) (rec : Rec) (c : Cfg) (name : Str) (st u t : St) (ps ds : List Prov) (v : Option Value)
    (ho : st.on = none)
    (h1 : (do let ps ← createProviders E rec c c.hierarchy
              let ds ← createProviders E rec c c.defaultHierarchy
              pure (ps, ds) : M (List Prov × List Prov)) st = some (.ok (ps, ds), u))
    (hu : u.on = none)
    (h2 : mergeHierarchy E rec lookupOptionsKey ps (.deep []) (setIc u { u.v.ic with mode := .lookupOptions }) = some (.ok v, t)) :
    ∃ t', resolve E rec c name st = some (.ok ⟨ps, ds, asMap v, name⟩, t') := by
  unfold resolve
  have e1 : forConfig (do
      let ps ← createProviders E rec c c.hierarchy
      let ds ← createProviders E rec c c.defaultHierarchy
      pure (ps, ds)) st = some (.ok (ps, ds), u) := by
    unfold forConfig
    rw [ho]
    exact h1
  rw [bind_ok e1]
  have e2 : ∃ t', forLookupOptions (withNode (.new .lookup lookupOptionsKey.source)
      (mergeM (.deep []) ps (mergeLocations E rec lookupOptionsKey (.deep [])))) u = some (.ok v, t') := by
    obtain ⟨w, on, tr⟩ := u
    simp only at hu
    subst hu
    unfold forLookupOptions
    rw [bind_ok (show view ⟨w, none, tr⟩ = some (.ok w, ⟨w, none, tr⟩) from rfl)]
    by_cases hmode : w.ic.mode = .lookupOptions
    · rw [if_pos hmode, Quiet.off_withNode rfl]
      have : setIc ⟨w, none, tr⟩ { w.ic with mode := .lookupOptions } = ⟨w, none, tr⟩ := by
        unfold setIc; rw [← hmode]
      simp only [this] at h2
      exact ⟨_, h2⟩
    · rw [if_neg hmode]
      unfold withCopy
      rw [Quiet.off_withNode rfl]
      have h2' : mergeM (.deep []) ps (mergeLocations E rec lookupOptionsKey (.deep []))
        { v := { w with ic := { w.ic with mode := .lookupOptions } }, on := explForOptions none, tree := tr } = some (.ok v, t) := h2
      simp only [h2']
      exact ⟨_, rfl⟩
  obtain ⟨t', e2⟩ := e2
  rw [bind_ok e2]
  exact ⟨t', rfl⟩

example : RCfg.optionsOf ⟨[], [], some [(s "m::x", .map [(s "merge", s "deep")]), (s "y", .map [])], "m".toList⟩
    ⟨"m::x".toList, [.name "m::x".toList]⟩ = some [(s "merge", s "deep")] := by decide +kernel
example : RCfg.optionsOf ⟨[], [], some [(s "m::x", .map [(s "merge", s "deep")]), (s "y", .map [])], "m".toList⟩
    ⟨"y".toList, [.name "y".toList]⟩ = none := by decide +kernel
example : RCfg.optionsOf ⟨[], [], some [(s "m::x", .map [(s "merge", s "deep")]), (s "y", .map [])], []⟩
    ⟨"y".toList, [.name "y".toList]⟩ = some [] := by decide +kernel

/-! ### C32 -/

/-- C32: there is a merge option that counts, and it stands for a strategy or an error. -/
theorem C32_total (cli : Option Value) (lo : Option Entries) : ∃ o r, MergeOption cli lo o ∧ StrategyOf o r := by
  obtain ⟨o, ho⟩ := mergeOption_total cli lo
  obtain ⟨r, hr⟩ := strategyOf_total o
  exact ⟨o, r, ho, hr⟩

/-- The common part of `C32_lookup_partial` and `C58_converted`. -/
theorem configAt_top (E : Env) (rec : Rec) (path name key : Str) (opts : Entries) (st u : St) (rc : RCfg) (k : Key)
    (hcfg : config E rec path name st = some (.ok rc, u)) (hk : newKey key = .ok k)
    (hm : u.v.ic.mode = .top) (ho : u.on = none)
    (hwc : ∀ v, Entries.getS opts "merge".toList = some v → v.WF) (hwo : ∀ m, rc.optionsOf k = some m → WF (.map m))
    (o : Option Value) (s : Strategy) (hmo : MergeOption (Entries.getS opts "merge".toList) (rc.optionsOf k) o)
    (hs : StrategyOf o (.ok s)) (c : Option (Nat × Option (List Value))) (hc : ConvertTo E (rc.optionsOf k) c) :
    configAt E rec path opts key name st =
      match mergeHierarchy E rec k rc.providers s (asking u (rc.optionsOf k) s (sensitiveTo E c)) with
      | none => none
      | some (.ok v, t) => some (convert E v c, { setIc t u.v.ic with on := none })
      | some (.panic e, t) => some (.panic e, { setIc t u.v.ic with on := none }) := by
  unfold configAt
  rw [bind_ok hcfg, hk, M.lift_ok_bind, bind_ok (show view u = some (.ok u.v, u) from rfl)]
  simp only [hm]
  exact asking_top (ask := mergeHierarchy E rec k rc.providers) hwo hwc hmo hs hc hm ho

/-- C32: a lookup through a configuration at the top level asks the hierarchy with the strategy that the caller's merge
option or else the key's lookup options determine: it finds something iff the hierarchy, so asked, does, fails if it
fails, and does not end if it does not. -/
theorem C32_lookup_partial (E : Env) (rec : Rec) (path name key : Str) (opts : Entries) (st u : St) (rc : RCfg) (k : Key)
    (hcfg : config E rec path name st = some (.ok rc, u)) (hk : newKey key = .ok k)
    (hm : u.v.ic.mode = .top) (ho : u.on = none)
    (hwc : ∀ v, Entries.getS opts "merge".toList = some v → v.WF) (hwo : ∀ m, rc.optionsOf k = some m → WF (.map m))
    (o : Option Value) (s : Strategy) (hmo : MergeOption (Entries.getS opts "merge".toList) (rc.optionsOf k) o)
    (hs : StrategyOf o (.ok s)) (hn : ∀ m, rc.optionsOf k = some m → ¬Has m "convert_to".toList) :
    configAt E rec path opts key name st =
      match mergeHierarchy E rec k rc.providers s (asking u (rc.optionsOf k) s false) with
      | none => none
      | some (r, t) => some (r, { setIc t u.v.ic with on := none }) := by
  have hc : ConvertTo E (rc.optionsOf k) none := by
    cases h : rc.optionsOf k with
    | none => exact .noOptions
    | some m => exact .absent (hn m h)
  rw [configAt_top E rec path name key opts st u rc k hcfg hk hm ho hwc hwo o s hmo hs none hc]
  unfold sensitiveTo
  rcases mergeHierarchy E rec k rc.providers s (asking u (rc.optionsOf k) s false) with _ | ⟨v | e, t⟩
  · rfl
  · simp only [convert_of (E := E) (c := none) (v := v) (r := .ok v) (by cases v; exact .nothing; exact .asIs)]
  · rfl

/-- C32: with a merge option that stands for no strategy, the lookup fails, without asking the hierarchy for anything. -/
theorem C32_unknown (E : Env) (rec : Rec) (path name key : Str) (opts : Entries) (st u : St) (rc : RCfg) (k : Key)
    (hcfg : config E rec path name st = some (.ok rc, u)) (hk : newKey key = .ok k)
    (hm : u.v.ic.mode = .top) (ho : u.on = none)
    (hwc : ∀ v, Entries.getS opts "merge".toList = some v → v.WF) (hwo : ∀ m, rc.optionsOf k = some m → WF (.map m))
    (o : Option Value) (e : Err) (hmo : MergeOption (Entries.getS opts "merge".toList) (rc.optionsOf k) o)
    (hs : StrategyOf o (.panic e)) :
    configAt E rec path opts key name st = some (.panic e, u) := by
  unfold configAt
  rw [bind_ok hcfg, hk, M.lift_ok_bind, bind_ok (show view u = some (.ok u.v, u) from rfl)]
  simp only [hm]
  obtain ⟨v, on, tr⟩ := u
  simp only at ho hm
  subst ho
  rw [forData_top hm rfl, Quiet.off_withNode rfl, bind_panic (setMergeStrategy_off hwo hwc hmo hs rfl)]
  rfl

/-- C58: what a lookup through a configuration at the top level returns is the conversion of what the hierarchy gives
(merged with the strategy of the lookup), to the type and with the arguments that the key's lookup options have. -/
theorem C58_converted (E : Env) (rec : Rec) (path name key : Str) (opts : Entries) (st u t : St) (rc : RCfg) (k : Key)
    (hcfg : config E rec path name st = some (.ok rc, u)) (hk : newKey key = .ok k)
    (hm : u.v.ic.mode = .top) (ho : u.on = none)
    (hwc : ∀ v, Entries.getS opts "merge".toList = some v → v.WF) (hwo : ∀ m, rc.optionsOf k = some m → WF (.map m))
    (o : Option Value) (s : Strategy) (hmo : MergeOption (Entries.getS opts "merge".toList) (rc.optionsOf k) o)
    (hs : StrategyOf o (.ok s)) (c : Option (Nat × Option (List Value))) (hc : ConvertTo E (rc.optionsOf k) c)
    (v : Option Value) (r : Res (Option Value)) (hcv : Converted E c v r)
    (ha : mergeHierarchy E rec k rc.providers s (asking u (rc.optionsOf k) s (sensitiveTo E c)) = some (.ok v, t)) :
    ∃ t', configAt E rec path opts key name st = some (r, t') := by
  rw [configAt_top E rec path name key opts st u rc k hcfg hk hm ho hwc hwo o s hmo hs c hc, ha]
  simp only [convert_of hcv]
  exact ⟨_, rfl⟩

/-- C58: when the type cannot be parsed, the lookup fails, without asking the hierarchy for anything. -/
theorem C58_bad_type (E : Env) (rec : Rec) (path name key n : Str) (opts m : Entries) (st u : St) (rc : RCfg) (k : Key)
    (hcfg : config E rec path name st = some (.ok rc, u)) (hk : newKey key = .ok k)
    (hm : u.v.ic.mode = .top) (ho : u.on = none)
    (hwc : ∀ v, Entries.getS opts "merge".toList = some v → v.WF) (hlo : rc.optionsOf k = some m) (hwo : WF (.map m))
    (o : Option Value) (s : Strategy) (hmo : MergeOption (Entries.getS opts "merge".toList) (rc.optionsOf k) o)
    (hs : StrategyOf o (.ok s)) (e : Err) (hc : (Value.str "convert_to".toList, .str n) ∈ m) (hp : E.parseType n = .panic e) :
    configAt E rec path opts key name st = some (.panic e, u) := by
  unfold configAt
  rw [bind_ok hcfg, hk, M.lift_ok_bind, bind_ok (show view u = some (.ok u.v, u) from rfl)]
  simp only [hm]
  obtain ⟨v, on, tr⟩ := u
  simp only at ho hm
  subst ho
  rw [forData_top hm rfl, Quiet.off_withNode rfl, bind_ok (setMergeStrategy_off (by rw [hlo]; rintro _ ⟨⟩; exact hwo) hwc hmo hs rfl)]
  unfold lookupAndConvert
  have hv : ∀ s : St, view s = some (.ok s.v, s) := fun _ => rfl
  rw [bind_ok (hv _)]
  have hx : extractConversion E (rc.optionsOf k) = .panic e := by
    unfold extractConversion
    rw [hlo]
    simp only [(getS_iff (WF_map.1 hwo).2 _ _).2 hc, hp]
    rfl
  have : (setIc (setIc ⟨v, none, tr⟩ { v.ic with mode := .data })
    { (setIc ⟨v, none, tr⟩ { v.ic with mode := .data }).v.ic with luOpts := rc.optionsOf k, strategy := some s }).v.ic.luOpts =
      rc.optionsOf k := rfl
  simp only [this, hx, M.lift_panic_bind]
  rfl

/-! ### C37 -/

/-- C37: the multiplexer merges, with the strategy of the lookup, the outcomes `gd` that its functions have when asked for
the value, and converts the result. The lookup options are the deep merge of the outcomes `go` that the same functions have
when asked for lookup options, if that is a hash. (`J1`, `J2` say in which states the functions have these outcomes.) -/
theorem C37_mux (E : Env) (rec : Rec) (fs : List LkFn) (hfs : E.muxFns = some fs) (opts : Entries) (key : Str) (k : Key)
    (hk : newKey key = .ok k) (J1 J2 : St → Prop) (hJ1 : ∀ s, J1 s → s.on = none) (hJ2 : ∀ s, J2 s → s.on = none)
    (go gd : LkFn → Res (Option Value)) (h1 : ∀ f ∈ fs, Does J1 (rec.lk f opts key) (go f))
    (h2 : ∀ f ∈ fs, Does J2 (rec.lk f opts key) (gd f))
    (u : St) (hm : u.v.ic.mode = .top) (ho : u.on = none)
    (lo : Option Value) (hlo : (runMerge (.deep []) fs go).1 = .ok lo) (m : Option Entries)
    (hlm : ∀ x, m = some x ↔ lo = some (.map x)) (hwm : ∀ x, m = some x → WF (.map x))
    (hwc : ∀ v, Entries.getS opts "merge".toList = some v → v.WF)
    (o : Option Value) (s : Strategy) (hmo : MergeOption (Entries.getS opts "merge".toList) m o)
    (hs : StrategyOf o (.ok s)) (c : Option (Nat × Option (List Value))) (hc : ConvertTo E m c)
    (hs1 : J1 (setIc u { u.v.ic with mode := .lookupOptions }))
    (hs2 : ∀ t, J1 t → J2 (asking (setIc t u.v.ic) m s (sensitiveTo E c)))
    (r : Res (Option Value))
    (hr : ∀ v, (runMerge s fs gd).1 = .ok v → Converted E c v r) (hr' : ∀ e, (runMerge s fs gd).1 = .panic e → r = .panic e) :
    ∃ t, muxLookup E rec opts key u = some (r, t) := by
  have hasm : asMap lo = m := by
    cases m with
    | some x => rw [(hlm x).1 rfl]; rfl
    | none =>
      unfold asMap
      split
      · exact absurd ((hlm _).2 rfl) (by simp)
      · rfl
  unfold muxLookup
  simp only [hfs]
  obtain ⟨t, ht, hJt⟩ := mergeM_does hJ1 (.deep []) h1 _ hs1
  have e1 : forLookupOptions (mergeM (.deep []) fs (fun f => rec.lk f opts key)) u =
      some (.ok lo, setIc t u.v.ic) := by
    have hot := hJ1 t hJt
    obtain ⟨v, on, tr⟩ := u
    obtain ⟨tv, ton, ttr⟩ := t
    simp only at ho hm hot
    subst ho hot
    unfold forLookupOptions
    rw [bind_ok (show view ⟨v, none, tr⟩ = some (.ok v, ⟨v, none, tr⟩) from rfl), if_neg (by rw [hm]; decide)]
    unfold withCopy
    rw [hlo] at ht
    have ht' : mergeM (.deep []) fs (fun f => rec.lk f opts key)
      { v := { v with ic := { v.ic with mode := .lookupOptions } }, on := explForOptions none, tree := tr } =
        some (.ok lo, ⟨tv, none, ttr⟩) := ht
    simp only [ht']
    rfl
  rw [bind_ok e1, hk]
  simp only [M.lift_ok_bind, hasm]
  have e2 := asking_top (ask := fun st => mergeM st fs (fun f => rec.lk f opts key)) (k := k) hwm hwc hmo hs hc
    (u := setIc t u.v.ic) hm (hJ1 t hJt)
  simp only [e2]
  obtain ⟨w, hw, _⟩ := mergeM_does hJ2 s h2 _ (hs2 t hJt)
  simp only [hw]
  cases hrun : (runMerge s fs gd).1 with
  | ok v => simp only [convert_of (hr v hrun)]; exact ⟨_, rfl⟩
  | panic e => rw [hr' e hrun]; exact ⟨_, rfl⟩

/-- C37: under the default strategy, that is if neither the caller nor the lookup options say anything about merging (or
converting), the answer is that of the first function that has one. -/
theorem C37_first (E : Env) (rec : Rec) (fs pre post : List LkFn) (f : LkFn) (hfs : E.muxFns = some fs)
    (hsplit : fs = pre ++ f :: post) (opts : Entries) (key : Str) (k : Key)
    (hk : newKey key = .ok k) (J1 J2 : St → Prop) (hJ1 : ∀ s, J1 s → s.on = none) (hJ2 : ∀ s, J2 s → s.on = none)
    (go gd : LkFn → Res (Option Value)) (h1 : ∀ f ∈ fs, Does J1 (rec.lk f opts key) (go f))
    (h2 : ∀ f ∈ fs, Does J2 (rec.lk f opts key) (gd f))
    (u : St) (hm : u.v.ic.mode = .top) (ho : u.on = none) (hwc : Entries.getS opts "merge".toList = none)
    (lo : Option Value) (hlo : (runMerge (.deep []) fs go).1 = .ok lo) (m : Option Entries)
    (hlm : ∀ x, m = some x ↔ lo = some (.map x))
    (hno : ∀ x, m = some x → WF (.map x) ∧ ¬Has x "merge".toList ∧ ¬Has x "convert_to".toList)
    (hs1 : J1 (setIc u { u.v.ic with mode := .lookupOptions })) (hs2 : ∀ t, J1 t → J2 (asking (setIc t u.v.ic) m .first false))
    (v : Value) (hpre : ∀ g ∈ pre, gd g = .ok none) (hf : gd f = .ok (some v)) :
    ∃ t, muxLookup E rec opts key u = some (.ok (some v), t) := by
  have hrun : (runMerge .first fs gd).1 = .ok (some v) := by
    rcases C07_first fs gd with ⟨p, x, q, w, he, h3, h4, h5⟩ | ⟨p, x, q, e, he, h3, h4, h5⟩ | ⟨h3, h5⟩
    · rw [h5]
      have : x = f ∨ w = v := by
        rw [hsplit] at he
        rcases List.append_eq_append_iff.1 he with ⟨as, ha, hb⟩ | ⟨bs, ha, hb⟩
        · cases as with
          | nil => simp only [List.nil_append, List.cons.injEq] at hb; exact .inl hb.1.symm
          | cons a as =>
            simp only [List.cons_append, List.cons.injEq] at hb
            have := h3 f (by rw [ha, hb.1]; simp)
            rw [hf] at this; cases this
        · cases bs with
          | nil => simp only [List.nil_append, List.cons.injEq] at hb; exact .inl hb.1
          | cons a bs =>
            simp only [List.cons_append, List.cons.injEq] at hb
            have := hpre x (by rw [ha, hb.1]; simp)
            rw [h4] at this; cases this
      rcases this with rfl | rfl
      · rw [hf] at h4; cases h4; rfl
      · rfl
    · exfalso
      rw [hsplit] at he
      rcases List.append_eq_append_iff.1 he with ⟨as, ha, hb⟩ | ⟨bs, ha, hb⟩
      · cases as with
        | nil => simp only [List.nil_append, List.cons.injEq] at hb; rw [← hb.1, hf] at h4; cases h4
        | cons a as =>
          simp only [List.cons_append, List.cons.injEq] at hb
          have := h3 f (by rw [ha, hb.1]; simp)
          rw [hf] at this; cases this
      · cases bs with
        | nil => simp only [List.nil_append, List.cons.injEq] at hb; rw [hb.1, hf] at h4; cases h4
        | cons a bs =>
          simp only [List.cons_append, List.cons.injEq] at hb
          have := hpre x (by rw [ha, hb.1]; simp)
          rw [h4] at this; cases this
    · have := h3 f (by rw [hsplit]; simp)
      rw [hf] at this; cases this
  have hcv : ConvertTo E m none := by
    cases m with
    | none => exact .noOptions
    | some x => exact .absent (hno x rfl).2.2
  refine C37_mux E rec fs hfs opts key k hk J1 J2 hJ1 hJ2 go gd h1 h2 u hm ho lo hlo m hlm (fun x h => (hno x h).1)
    (by rw [hwc]; exact fun _ h => (nomatch h)) none .first (.none hwc (fun x h => (hno x h).2.1)) .none none hcv hs1 hs2
    (.ok (some v)) ?_ ?_
  · rw [hrun]; rintro _ ⟨⟩; exact .asIs
  · rw [hrun]; exact fun _ h => (nomatch h)

/-- The hypotheses of `C37_first` can be met: here the second of two functions has a value. -/
example (rest : Rec) : ∃ t, muxLookup { top := .mux, muxFns := some [.env, .scope] } (step { top := .mux } rest) [] "x".toList
    (st [(s "x", .int 1)]) = some (.ok (some (.int 1)), t) := by
  let I : St → Prop := fun s => s.on = none ∧ s.v.ic.scope = .map [(World.s "x", .int 1)]
  let g : LkFn → Res (Option Value) := fun f => match f with | .scope => .ok (some (.int 1)) | _ => .ok none
  have h : ∀ f ∈ [LkFn.env, .scope], Does I ((step { top := .mux } rest).lk f [] "x".toList) (g f) := by
    intro f hf s hs
    simp only [List.mem_cons, List.not_mem_nil, or_false] at hf
    rcases hf with rfl | rfl
    · exact ⟨s, rfl, hs⟩
    · refine ⟨s, ?_, hs⟩
      have e : (step { top := .mux } rest).lk .scope [] "x".toList s = some (.ok (s.v.ic.scope.get "x".toList), s) := rfl
      rw [e, hs.2]
      rfl
  exact C37_first _ _ [.env, .scope] [.env] [] .scope rfl rfl [] _ ⟨"x".toList, [.name "x".toList]⟩ (by decide +kernel) I I
    (fun _ h => h.1) (fun _ h => h.1) g g h h _ rfl rfl rfl (some (.int 1)) rfl none (fun x => by simp) (fun x h => (nomatch h))
    ⟨rfl, rfl⟩ (fun t ht => ⟨ht.1, rfl⟩) (.int 1) (by intro g hg; cases hg with | head => rfl | tail _ h => cases h) rfl

/-- A session with a multiplexer over two functions. -/
def muxWorld (a b : Entries) : Env :=
  { top := .mux, muxFns := some [.custom (fun _ k => .ret (Entries.getS a k)), .custom (fun _ k => .ret (Entries.getS b k))] }

example : ask (muxWorld [(s "y", .int 1)] [(s "x", .int 2), (s "y", .int 3)]) 10 "x" = some (.ok (some (.int 2))) := by
  decide +kernel
example : ask (muxWorld [(s "y", .int 1)] [(s "x", .int 2), (s "y", .int 3)]) 10 "y" = some (.ok (some (.int 1))) := by
  decide +kernel
example : ((eval (muxWorld [(s "y", .arr [.int 1])] [(s "y", .arr [.int 3])]) 10).lookup ⟨"y".toList, [.name "y".toList]⟩
    [(s "merge", s "unique")] (st [])).map Prod.fst = some (.ok (some (.arr [.int 1, .int 3]))) := by decide +kernel

/-- The multiplexer asks its functions for the lookup options of a key by calling them in another mode, and a function that
pays no attention to the mode answers with the value. So a value that is a hash acts as lookup options for itself: with
these data, looking up `x` fails, and looking up `y` merges. -/
theorem C37_value_as_options :
    ask (muxWorld [(s "x", .map [(s "merge", s "no such strategy")])] []) 10 "x" =
      some (.panic (.unknownStrategy "no such strategy".toList)) ∧
    ask (muxWorld [(s "y", .map [(s "merge", s "hash"), (s "a", .int 1)])] [(s "y", .map [(s "b", .int 2)])]) 10 "y" =
      some (.ok (some (.map [(s "b", .int 2), (s "merge", s "hash"), (s "a", .int 1)]))) ∧
    ask (muxWorld [(s "y", .map [(s "a", .int 1)])] [(s "y", .map [(s "b", .int 2)])]) 10 "y" =
      some (.ok (some (.map [(s "a", .int 1)]))) := by
  decide +kernel

/-! ### C32 for nested lookups -/

/-- C32: a lookup that is made for the value of another (in data mode) uses the strategy of that one; neither its own
options nor the lookup options of its key play a role. -/
theorem C32_nested (E : Env) (rec : Rec) (path name key : Str) (opts : Entries) (st u : St) (rc : RCfg) (k : Key)
    (hcfg : config E rec path name st = some (.ok rc, u)) (hk : newKey key = .ok k)
    (hm : u.v.ic.mode = .data) (outer : Strategy) (hs : u.v.ic.strategy = some outer) :
    configAt E rec path opts key name st = mergeHierarchy E rec k rc.providers outer u := by
  unfold configAt
  rw [bind_ok hcfg, hk, M.lift_ok_bind, bind_ok (show view u = some (.ok u.v, u) from rfl)]
  simp only [hm]
  have : currentStrategy u = some (.ok outer, u) := by
    unfold currentStrategy
    rw [bind_ok (show view u = some (.ok u.v, u) from rfl)]
    simp only [hs]; rfl
  rw [bind_ok this]

/-- `y` has the strategy `unique` in its lookup options; `x` is an alias for it. -/
def nestedWorld : Env := two
  [(s "lookup_options", .map [(s "y", .map [(s "merge", s "unique")])]), (s "x", s "%{alias('y')}"), (s "y", .arr [.int 1])]
  [(s "y", .arr [.int 2])]

/-- C32 is false of nested lookups: the value that a lookup of `y` gives is not that which an alias for `y` gives. -/
theorem C32_false : ask nestedWorld 10 "y" = some (.ok (some (.arr [.int 1, .int 2]))) ∧
    ask nestedWorld 10 "x" = some (.ok (some (.arr [.int 1]))) := by
  decide +kernel

/-! Concrete cases of C32 and C58. -/

/-- Types: 7 is `Sensitive`, 8 is a type that makes a hash of the value and the arguments. -/
def convertWorld : Env :=
  { two [(s "lookup_options", .map [(s "x", .map [(s "convert_to", .arr [s "T", .int 5]), (s "merge", .map [(s "strategy", s "deep"), (s "o", .int 1)])]),
        (s "p", .map [(s "convert_to", s "Sensitive")]), (s "q", .map [(s "convert_to", s "Nothing")]),
        (s "r", .map [(s "merge", s "sum")])]),
      (s "x", .map [(s "a", .int 1)]), (s "p", s "secret"), (s "r", .int 1)]
      [(s "x", .map [(s "b", .int 2)])] with
    parseType := fun n => if n = "Sensitive".toList then .ok 7 else if n = "T".toList then .ok 8 else .panic (.other 3)
    isSensitive := fun t => t = 7
    newValue := fun t v as => if t = 7 then .ok (.sensitive v) else .ok (.map [(s "value", v), (s "args", .arr (as.getD []))]) }

example : ask convertWorld 10 "x" =
    some (.ok (some (.map [(s "value", .map [(s "a", .int 1), (s "b", .int 2)]), (s "args", .arr [.int 5])]))) := by
  decide +kernel
example : ask convertWorld 10 "p" = some (.ok (some (.sensitive (s "secret")))) := by decide +kernel
example : ask convertWorld 10 "q" = some (.panic (.other 3)) := by decide +kernel
example : ask convertWorld 10 "r" = some (.panic (.unknownStrategy "sum".toList)) := by decide +kernel
example : ((eval convertWorld 10).lookup ⟨"r".toList, [.name "r".toList]⟩ [(s "merge", s "first")] (st [])).map Prod.fst =
    some (.ok (some (.int 1))) := by decide +kernel

/-! ### C34 -/

/-- C34, the part that holds: an explainer for lookup options only is not told about the data at all. When the
configuration has been found (and `lookup_options` explained), asking for the value adds nothing to the explanation. -/
theorem C34_only_options_partial (E : Env) (n : Nat) (path name key : Str) (opts : Entries) (s u t : St) (rc : RCfg) (x : ExplOpts)
    (r : Res (Option Value)) (hcfg : config E (eval E n) path name s = some (.ok rc, u)) (hm : u.v.ic.mode = .top)
    (ho : u.on = some x) (hx : x.onlyOptions = true) (h : configAt E (eval E n) path opts key name s = some (r, t)) :
    t.tree = u.tree := by
  unfold configAt at h
  rw [bind_ok hcfg] at h
  cases hk : newKey key with
  | panic e => rw [hk, M.lift_panic_bind] at h; cases h; rfl
  | ok k =>
    rw [hk, M.lift_ok_bind, bind_ok (show view u = some (.ok u.v, u) from rfl)] at h
    simp only [hm] at h
    unfold forData at h
    rw [bind_ok (show view u = some (.ok u.v, u) from rfl), if_neg (by rw [hm]; decide)] at h
    have hq : Quiet (withNode (.new .lookup k.source) (do
        setMergeStrategy (Entries.getS opts "merge".toList) (rc.optionsOf k)
        lookupAndConvert E (do
          let st ← currentStrategy
          mergeHierarchy E (eval E n) k rc.providers st))) := by
      have hc := QuietRel.closed E
      have hq := QuietRel.eval E n
      exact hc.withNode _ (hc.bind (hc.setMergeStrategy _ _) (fun _ => hc.lookupAndConvert
        (hc.bind hc.currentStrategy (fun st => hc.mergeHierarchy hq k rc.providers st))))
    unfold withCopy at h
    have : explForData u.on = none := by rw [ho]; unfold explForData; simp [hx]
    rw [this] at h
    split at h
    · cases h
    · rename_i r' s' hs'
      cases h
      exact (hq _ _ _ rfl hs').2

/-- A lookup with such an explainer: it has explained the lookup options (one branch) and told nothing of the data. -/
example : ((eval convertWorld 10).lookup ⟨"p".toList, [.name "p".toList]⟩ [] (st [] (some ⟨true, true⟩))).map
    (fun r => (r.1, match r.2.tree with | .at c _ => c.branches.length | .off _ => 99)) =
      some (.ok (some (.sensitive (s "secret"))), 1) := by decide +kernel

mutual
/-- Does the value occur in what the node or one of the nodes below it tells? -/
def Spec.tells (v : Value) : Node → Bool
  | .mk _ _ _ x _ bs => (x == some v) || Spec.tellsAny v bs
/-- Does the value occur in what one of the nodes or the nodes below them tells? -/
def Spec.tellsAny (v : Value) : List Node → Bool
  | [] => false
  | n :: ns => Spec.tells v n || Spec.tellsAny v ns
end

/-- C34 is false: the value that is converted to `Sensitive` is in the explanation. -/
theorem C34_false : ((eval convertWorld 10).lookup ⟨"p".toList, [.name "p".toList]⟩ [] (st [] (some ⟨false, false⟩))).map
    (fun r => (r.1, match r.2.tree with | .at c _ => Spec.tells (s "secret") c | .off _ => false)) =
      some (.ok (some (.sensitive (s "secret"))), true) := by decide +kernel

/-! ### C36 -/

/-- C36, the part that holds: the function runs with the given scope, and if it does not fail the scope is as it was
afterwards, and everything else is as the function left it. -/
theorem C36_restored_partial {α : Type} (sc : Scope) (m : M α) (st : St) (a : α) (t : St)
    (h : m (setIc st { st.v.ic with scope := sc }) = some (.ok a, t)) :
    doWithScope sc m st = some (.ok a, setIc t { t.v.ic with scope := st.v.ic.scope }) := by
  unfold doWithScope
  rw [bind_ok (show view st = some (.ok st.v, st) from rfl),
    bind_ok (show update (fun w => { w with ic := { w.ic with scope := sc } }) st = some (.ok (), setIc st { st.v.ic with scope := sc }) from rfl),
    bind_ok h]
  rfl

/-- C36 is false: whenever the function fails, the temporary scope stays. -/
theorem C36_false {α : Type} (sc : Scope) (m : M α) (st : St) (e : Err) (t : St)
    (h : m (setIc st { st.v.ic with scope := sc }) = some (.panic e, t)) : doWithScope sc m st = some (.panic e, t) := by
  unfold doWithScope
  rw [bind_ok (show view st = some (.ok st.v, st) from rfl),
    bind_ok (show update (fun w => { w with ic := { w.ic with scope := sc } }) st = some (.ok (), setIc st { st.v.ic with scope := sc }) from rfl),
    bind_panic h]

example : (doWithScope (.map [(s "x", .int 1)]) (do let v ← view; pure (v.ic.scope.get "x".toList)) (st [(s "x", .int 2)])).map
    (fun r => (r.1, r.2.v.ic.scope.get "x".toList)) = some (.ok (some (.int 1)), some (.int 2)) := by decide +kernel
example : (doWithScope (α := Unit) (.map [(s "x", .int 1)]) (panic .typeAssertion) (st [(s "x", .int 2)])).map
    (fun r => (r.1, r.2.v.ic.scope.get "x".toList)) = some (.panic .typeAssertion, some (.int 1)) := by decide +kernel

/-! ### C38 -/

/-- A configuration with a hierarchy and a default hierarchy. -/
def defaultsWorld : Env := mk
  (.map [(s "version", .int 5), (s "hierarchy", .arr [entry "a" "a.yaml"]), (s "default_hierarchy", .arr [entry "d" "d.yaml"])])
  [("/h/data/a.yaml".toList, .map [(s "x", .int 1)]), ("/h/data/d.yaml".toList, .map [(s "x", .int 2), (s "y", .int 3)])]

/-- C38 is false: `y` is in the data of the default hierarchy, but it is not found. -/
theorem C38_false : ask defaultsWorld 10 "x" = some (.ok (some (.int 1))) ∧ ask defaultsWorld 10 "y" = some (.ok none) := by
  decide +kernel

/-- C38, what the code does instead: the answer of a configuration does not depend on the providers of its default
hierarchy, whatever they are. -/
theorem C38_ignored (E : Env) (rec : Rec) (path name key : Str) (opts : Entries) (st st' u : St) (rc : RCfg) (ds : List Prov)
    (h : config E rec path name st = some (.ok rc, u))
    (h' : config E rec path name st' = some (.ok { rc with defaultProviders := ds }, u)) :
    configAt E rec path opts key name st = configAt E rec path opts key name st' := by
  unfold configAt
  rw [bind_ok h, bind_ok h']
  rfl

end Hiera
