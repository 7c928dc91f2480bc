/- C97: lookups in an ordinary set-up whose data refers to variables and other keys (`Spec/Referring.lean`). -/
import Verif.Lemmas.Referring
import Verif.Lemmas.Below

set_option autoImplicit false

namespace Hiera

open Value Spec World

/-! ### Levels -/

theorem getS_written (key : Str) : ∀ es : List (Str × Template),
    Entries.getS (writtenE es) key = ((es.find? (fun e => key = e.1)).map (·.2)).map Template.written
  | [] => rfl
  | (k, t) :: es => by
    have ih := getS_written key es
    unfold Entries.getS Entries.get at ih ⊢
    rw [writtenE, List.find?_cons, List.find?_cons]
    by_cases h : key = k
    · simp [equals, h]
    · simp only [equals, h, decide_false]
      rw [show (key == k) = false from by simpa using h]
      exact ih

theorem sheet_has (l : Sheet) (key : Str) : l.level.has key = (l.has key).map Template.written := by
  unfold Level.has Sheet.has Sheet.level
  cases l.data with
  | none => rfl
  | some es => exact getS_written key es

/-- A level that has just a value for a key. -/
def justHas (key : Str) (v : Option Value) : Level := ⟨[], [], v.map (fun v => [(.str key, v)])⟩

theorem justHas_has (key : Str) (v : Option Value) : (justHas key v).has key = v := by
  cases v with
  | none => rfl
  | some v => simp [justHas, Level.has, Entries.getS, Entries.get, equals]

section
variable {E : Env} {sc : Scope} {ls : List Sheet} {ans : Str → Option Value} {r : Ref} {C : Ctx}
  (hren : ∀ v, NoPercent v → '%' ∉ E.render v) (hi : ∀ v, NoPercent v → r.interp C true v = pure (some v)) (hC : C.scope = sc)
  (key : Str)
include hren hi hC

theorem sheets_meant : ∀ ms : List Sheet, (∀ t ∈ templatesOf ms key, t.Ok) →
    (∀ t ∈ templatesOf ms key, ∀ x fs, DataPiece.var x fs ∈ t.uses → ∀ v, sc.get x = some v → NoPercent v) →
    (∀ t ∈ templatesOf ms key, ∀ x fs, DataPiece.key x fs ∈ t.uses → Answers E sc ls r x (ans x)) →
    ∃ ns : List Level, (ms.map Sheet.level).map (fun l => readAs E r C (l.has key)) = ns.map (fun n => pure (n.has key)) ∧
      valuesOf ns key = valueL E sc ans (templatesOf ms key) ∧
      MeantL E sc ls (templatesOf ms key) (valuesOf ns key) ∧ ∀ v ∈ valuesOf ns key, NoPercent v ∧ WF v
  | [], _, _, _ => ⟨[], rfl, rfl, .nil, fun _ h => by cases h⟩
  | m :: ms, hok, hv, hk => by
    have sub : ∀ t ∈ templatesOf ms key, t ∈ templatesOf (m :: ms) key := by
      intro t ht
      unfold templatesOf at ht ⊢
      rw [List.filterMap_cons]
      split
      · exact ht
      · exact List.mem_cons_of_mem _ ht
    obtain ⟨ns, h1, h0, h2, h3⟩ := sheets_meant ms (fun t ht => hok t (sub t ht))
      (fun t ht => hv t (sub t ht)) (fun t ht => hk t (sub t ht))
    have hread : readAs E r C (m.level.has key) = readAs E r C ((m.has key).map Template.written) := by rw [sheet_has]
    cases hh : m.has key with
    | none =>
      have e : templatesOf (m :: ms) key = templatesOf ms key := by unfold templatesOf; rw [List.filterMap_cons, hh]
      refine ⟨justHas key none :: ns, ?_, ?_, ?_, ?_⟩
      · rw [hh] at hread
        rw [List.map_cons, List.map_cons, List.map_cons, h1, hread, justHas_has]
        rfl
      · rw [valuesOf_cons, justHas_has, e]
        exact h0
      · rw [valuesOf_cons, justHas_has, e]
        exact h2
      · rw [valuesOf_cons, justHas_has]
        exact h3
    | some t =>
      have e : templatesOf (m :: ms) key = t :: templatesOf ms key := by unfold templatesOf; rw [List.filterMap_cons, hh]
      rw [e] at hok hv hk ⊢
      obtain ⟨a1, a2, a3⟩ := template_meant hren hi hC t (hok t (List.mem_cons_self ..)) (hv t (List.mem_cons_self ..)) (hk t (List.mem_cons_self ..))
      refine ⟨justHas key (some (valueT E sc ans t)) :: ns, ?_, ?_, ?_, ?_⟩
      · rw [hh] at hread
        rw [List.map_cons, List.map_cons, List.map_cons, h1, hread, justHas_has]
        show refInterp E r C true t.written :: _ = _
        rw [a3]
      · rw [valuesOf_cons, justHas_has, valueL, ← h0]
        rfl
      · rw [valuesOf_cons, justHas_has]
        exact .cons a1 h2
      · rw [valuesOf_cons, justHas_has]
        intro w hw
        rcases List.mem_cons.1 hw with rfl | hw
        · exact a2
        · exact h3 w hw

end

/-! ### Set-ups -/

/-- A key whose data can be read: what it has is written as it should be, the variables in it have no percent signs, and lookup
options say how its values are merged, if they say anything about it. -/
structure Spec.Legible (E : Env) (sc : Scope) (ls : List Sheet) (key : Str) : Prop where
  part : KeyPart key
  ordinary : key ≠ "lookup_options".toList
  written : ∀ t ∈ templatesOf ls key, t.Ok
  vars : ∀ t ∈ templatesOf ls key, ∀ x fs, DataPiece.var x fs ∈ t.uses → ∀ v, sc.get x = some v → NoPercent v
  options : ∀ v ∈ valuesOf (ls.map Sheet.level) "lookup_options".toList, OptionsAre key v

/-- The set-up: `K` are the keys in reach, and references go from a key to keys of a lower rank. -/
structure Spec.Referring (E : Env) (sc : Scope) (ls : List Sheet) (K : Str → Prop) (rank : Str → Nat) : Prop where
  setup : Ordinary E sc (ls.map Sheet.level)
  rendered : ∀ v, NoPercent v → '%' ∉ E.render v
  options : ∀ v ∈ valuesOf (ls.map Sheet.level) "lookup_options".toList, Unmarked v
  legible : ∀ k, K k → Legible E sc ls k
  refs : ∀ k, K k → ∀ t ∈ templatesOf ls k, ∀ x fs, DataPiece.key x fs ∈ t.uses → K x ∧ rank x < rank k ∧
    ∀ vs st, MeantL E sc ls (templatesOf ls x) vs → MergedBy (ls.map Sheet.level) x [] st → Mergeable st vs


/-- The lookup functions: those of the command line and the server, or the configuration alone if there are no references. -/
def Spec.ReferringTop (E : Env) (ls : List Sheet) (K : Str → Prop) (root : Str) : Prop :=
  (E.top = .mux ∧ E.muxFns = some [.config, .env] ∧ ∀ k, K k → NotEnv k) ∨
  (E.top = .config ∧ ∀ t ∈ templatesOf ls root, ∀ x fs, DataPiece.key x fs ∉ t.uses)

/-! ### Lookups -/

theorem mergedBy_exists {ls : List Level} {key : Str} (h : ∀ v ∈ valuesOf ls "lookup_options".toList, OptionsAre key v) :
    ∃ st, MergedBy ls key [] st := by
  cases hf : (valuesOf ls "lookup_options".toList).findSome? (mergeIn key) with
  | none => exact ⟨_, .default rfl hf⟩
  | some m =>
    obtain ⟨v, hv, hm⟩ := List.exists_of_findSome?_eq_some hf
    obtain ⟨es, rfl, ho⟩ := h v hv
    have : ∃ st, m = .str st := by
      unfold mergeIn at hm
      simp only [valueAt] at hm
      cases hg : Entries.get es (.str key) with
      | none => rw [hg] at hm; cases hm
      | some o =>
        obtain ⟨os, rfl, _, h2⟩ := ho o hg
        rw [hg] at hm
        simp only [Option.bind_some, valueAt] at hm
        cases hg' : Entries.get os (.str "merge".toList) with
        | none => rw [hg'] at hm; cases hm
        | some w =>
          rw [hg'] at hm
          cases hm
          exact h2 _ hg'
    obtain ⟨st, rfl⟩ := this
    exact ⟨st, .said rfl hf⟩

/-- What the configuration has in such a set-up. -/
def siteOf (E : Env) (sc : Scope) (ls : List Sheet) : Site :=
  ⟨(ls.map Sheet.level).map (resolvedOf E sc), asMap (outcome (.deep []) (ls.map Sheet.level) "lookup_options".toList)⟩

/-- What there is to know about a set-up: `x` is what the configuration has, and `P` says which values can be merged. -/
structure Sheeted (P : Str → List Value → Prop) (E : Env) (sc : Scope) (ls : List Sheet) (K : Str → Prop) (rank : Str → Nat) (si : Site) : Prop where
  site : (Ans.of (newCfg E.cfg E.configPath (E.readYaml E.configPath)) >>= refSite E (ref E none 1) ⟨sc, .call⟩) = pure si
  strategy : ∀ {key : Str} {opts : Entries} {st : Str}, (∀ v ∈ valuesOf (ls.map Sheet.level) "lookup_options".toList, OptionsAre key v) →
    MergedBy (ls.map Sheet.level) key opts st →
    strategyNamed (refMergeOption opts (si.optionsOf ⟨key, [.name key]⟩)) = (st, none) ∧ extractConversion E (si.optionsOf ⟨key, [.name key]⟩) = .ok none
  hierarchy : ∀ (r : Ref) (C : Ctx) (key : Str) {st : Str} {stv : Strategy} {ns : List Level},
    (ls.map Sheet.level).map (fun l => readAs E r C (l.has key)) = ns.map (fun n => pure (n.has key)) → (∀ v ∈ valuesOf ns key, WF v) →
    getStrategy st none = .ok stv → P st (valuesOf ns key) →
    refHierarchy E r C ⟨key, [.name key]⟩ stv si.entries = pure (refCombine stv (valuesOf ns key))
  mergeable : ∀ {st : Str} {vs : List Value}, P st vs → Mergeable st vs
  rendered : ∀ v, NoPercent v → '%' ∉ E.render v
  legible : ∀ k, K k → Legible E sc ls k
  refs : ∀ k, K k → ∀ t ∈ templatesOf ls k, ∀ x fs, DataPiece.key x fs ∈ t.uses → K x ∧ rank x < rank k ∧
    ∀ vs st, MeantL E sc ls (templatesOf ls x) vs → MergedBy (ls.map Sheet.level) x [] st → P st vs

section
variable {E : Env} {sc : Scope} {ls : List Sheet} {K : Str → Prop} {rank : Str → Nat} {P : Str → List Value → Prop} {si : Site}
  (hr : Sheeted P E sc ls K rank si)
include hr

theorem hierarchy_meant {ans : Str → Option Value} {r : Ref} {C : Ctx} (hi : ∀ v, NoPercent v → r.interp C true v = pure (some v)) (hC : C.scope = sc)
    {key : Str} (hl : Legible E sc ls key) (ha : ∀ t ∈ templatesOf ls key, ∀ x fs, DataPiece.key x fs ∈ t.uses → Answers E sc ls r x (ans x))
    {st : Str} (hm : ∀ vs, MeantL E sc ls (templatesOf ls key) vs → P st vs) :
    MeantL E sc ls (templatesOf ls key) (valueL E sc ans (templatesOf ls key)) ∧
    ∃ stv v, getStrategy st none = .ok stv ∧ v = refCombine stv (valueL E sc ans (templatesOf ls key)) ∧
      refHierarchy E r C ⟨key, [.name key]⟩ stv si.entries = pure v ∧ v.map stv.convertValue = v ∧
      Textbook st (valueL E sc ans (templatesOf ls key)) v ∧ (∀ w, v = some w → NoPercent w ∧ WF w) := by
  obtain ⟨ns, h1, e, h2, h3⟩ := sheets_meant hr.rendered hi hC key ls hl.written hl.vars ha
  have hm := hm _ h2
  obtain ⟨stv, hst⟩ := mergeable_strategy (hr.mergeable hm)
  have hw : ∀ v ∈ valuesOf ns key, WF v := fun v hv => (h3 v hv).2
  obtain ⟨t1, t2⟩ := outcome_textbook hw hst (hr.mergeable hm)
  obtain ⟨c1, c2⟩ := outcome_combine (ls := ns) (key := key) hst (hr.mergeable hm).2.2
  have hc := outcome_clean stv (fun v hv => (h3 v hv).1)
  rw [c1] at t1 hc c2
  rw [← e]
  exact ⟨h2, stv, _, hst, rfl, hr.hierarchy r C key h1 hw hst hm, c2, t1, fun w e => ⟨hc w e, textbook_WF hw t1 w e⟩⟩

theorem byOptions_meant {ans : Str → Option Value} {n : Nat} {root : Str} (hl : Legible E sc ls root)
    (ha : ∀ t ∈ templatesOf ls root, ∀ x fs, DataPiece.key x fs ∈ t.uses → Answers E sc ls (ref E (some si) (n + 1)) x (ans x))
    {opts : Entries} {st : Str} (hb : MergedBy (ls.map Sheet.level) root opts st)
    (hm : ∀ vs, MeantL E sc ls (templatesOf ls root) vs → P st vs) :
    ∃ stv v, getStrategy st none = .ok stv ∧ v = refCombine stv (valueL E sc ans (templatesOf ls root)) ∧
      Answered E sc ls root opts v ∧ (∀ w, v = some w → NoPercent w ∧ WF w) ∧
      ByOptions E si (n + 1) sc opts root = pure v := by
  have hnk : newKey root = .ok ⟨root, [.name root]⟩ := by simpa [joinDots] using segments_key (xs := [root]) (by simp) (by simpa using hl.part)
  have hsaid := hr.strategy hl.options hb
  obtain ⟨h1, stv, v, hst, hv, _, h4, h5, h6⟩ := hierarchy_meant hr (ans := ans) (r := ref E (some si) (n + 1)) (C := ⟨sc, .call⟩)
    (fun v hv => interp_unmarked true (noPercent_unmarked hv)) rfl hl ha hm
  obtain ⟨_, stv', v', hst', hv', h2, _⟩ := hierarchy_meant hr (ans := ans) (r := ref E (some si) (n + 1)) (C := ⟨sc, .value (some stv)⟩)
    (fun v hv => interp_unmarked true (noPercent_unmarked hv)) rfl hl ha hm
  rw [hst] at hst'
  cases hst'
  rw [← hv] at hv'
  subst hv'
  refine ⟨stv, v', hst, hv, .merge h1 hb h5, h6, ?_⟩
  unfold ByOptions
  have e1 : strategyNamed (refMergeOption opts (si.optionsOf ⟨root, [.name root]⟩)) = (st, none) := hsaid.1
  have e2 : extractConversion E (si.optionsOf ⟨root, [.name root]⟩) = .ok none := hsaid.2
  simp only [hnk, Ans.of_ok_bind, e1, e2, hst, h2, Ans.pure_bind]
  cases v' with
  | none => rfl
  | some w => exact congrArg (fun y => some (Res.ok y)) h4

/-- The keys that are referred to can be merged. -/
def ReferredBy (P : Str → List Value → Prop) (E : Env) (sc : Scope) (ls : List Sheet) (K : Str → Prop) (key : Str) : Prop :=
  K key ∧ ∀ vs st, MeantL E sc ls (templatesOf ls key) vs → MergedBy (ls.map Sheet.level) key [] st → P st vs

/-- What nested lookups of a key give, if `ans` are the answers for the keys that it refers to. -/
theorem sheets_nested (ht : E.top = .mux) (hf : E.muxFns = some [.config, .env]) (hn : ∀ k, K k → NotEnv k) {key : Str}
    (hk : ReferredBy P E sc ls K key) {ans : Str → Option Value} {m : Nat}
    (ha : ∀ t ∈ templatesOf ls key, ∀ x fs, DataPiece.key x fs ∈ t.uses → Answers E sc ls (ref E (some si) (m + 1)) x (ans x))
    {st : Str} (hb : MergedBy (ls.map Sheet.level) key [] st) :
    ∃ stv v, getStrategy st none = .ok stv ∧ v = refCombine stv (valueL E sc ans (templatesOf ls key)) ∧
      Answers E sc ls (ref E (some si) (m + 3)) key v := by
  obtain ⟨hk, hm⟩ := hk
  have hl := hr.legible key hk
  obtain ⟨stv, v, hst, hv, a1, a2, a3⟩ := byOptions_meant hr (ans := ans) (n := m) hl ha hb (fun vs h => hm vs st h hb)
  refine ⟨stv, v, hst, hv, a1, a2, fun C hC src fs => ?_⟩
  show refLookup E (some si) (ref E (some si) (m + 2)) C ⟨src, .name key :: fs.map .name⟩ [] = _
  unfold refLookup
  have hroot : Key.root ⟨src, .name key :: fs.map .name⟩ = key := rfl
  rw [hroot, if_neg hl.ordinary, ht]
  show refMux E (ref E (some si) (m + 1 + 1)) C [] key >>= _ = _
  rw [C82_options_partial E hf _ (m + 1) C [] key (hn key hk), hC, a3, Ans.pure_bind]
  cases v with
  | none => rfl
  | some w =>
    simp only
    rw [refInterp_unmarked true (noPercent_marked (a2 w rfl).1), Ans.pure_bind]
    show some (Res.ok _) = some (Res.ok _)
    rw [Option.bind_some, Option.bind_some]
    exact congrArg (fun y => some (Res.ok y)) (digParts_fields fs w)

theorem sheets_answers (ht : E.top = .mux) (hf : E.muxFns = some [.config, .env]) (hn : ∀ k, K k → NotEnv k) :
    ∀ (q : Nat) (key : Str), ReferredBy P E sc ls K key → rank key < q →
      ∃ v, ∀ n, 2 * q + 1 ≤ n → Answers E sc ls (ref E (some si) n) key v
  | 0, _, _, h => absurd h (Nat.not_lt_zero _)
  | q + 1, key, hk, hrank => by
    have ih := sheets_answers ht hf hn q
    obtain ⟨st, hb⟩ := mergedBy_exists (hr.legible key hk.1).options
    classical
    let ans : Str → Option Value := fun x =>
      if h : ∃ v, ∀ n, 2 * q + 1 ≤ n → Answers E sc ls (ref E (some si) n) x v then h.choose else none
    have hans : ∀ t ∈ templatesOf ls key, ∀ x fs, DataPiece.key x fs ∈ t.uses → ∀ n, 2 * q + 1 ≤ n →
        Answers E sc ls (ref E (some si) n) x (ans x) := by
      intro t ht' x fs' hx
      obtain ⟨b1, b2, b3⟩ := hr.refs key hk.1 t ht' x fs' hx
      have h := ih x ⟨b1, b3⟩ (by omega)
      have e : ans x = h.choose := dif_pos h
      rw [e]
      exact h.choose_spec
    have each : ∀ m, 2 * q + 1 ≤ m + 1 → _ := fun m hle => sheets_nested hr ht hf hn hk (ans := ans) (m := m) (fun t ht' x fs' hx => hans t ht' x fs' hx (m + 1) hle) hb
    obtain ⟨stv, v, hst, hv, _⟩ := each (2 * q) (Nat.le_refl _)
    refine ⟨v, fun n hle => ?_⟩
    obtain ⟨m, rfl⟩ : ∃ m, n = m + 3 := ⟨n - 3, by omega⟩
    obtain ⟨stv', v', hst', hv', h⟩ := each m (by omega)
    rw [hst] at hst'
    cases hst'
    rw [hv, ← hv']
    exact h

/-- The answers for the keys that are referred to. -/
theorem sheets_refs (ht : E.top = .mux) (hf : E.muxFns = some [.config, .env]) (hn : ∀ k, K k → NotEnv k) :
    ∃ ans : Str → Option Value, ∀ key, ReferredBy P E sc ls K key →
      (∀ n, 2 * rank key + 3 ≤ n → Answers E sc ls (ref E (some si) n) key (ans key)) ∧
      ∀ st, MergedBy (ls.map Sheet.level) key [] st → ∃ stv, getStrategy st none = .ok stv ∧
        ans key = refCombine stv (valueL E sc ans (templatesOf ls key)) := by
  classical
  let ans : Str → Option Value := fun x =>
    if h : ∃ v, ∀ n, 2 * (rank x + 1) + 1 ≤ n → Answers E sc ls (ref E (some si) n) x v then h.choose else none
  have hans : ∀ key, ReferredBy P E sc ls K key → ∀ n, 2 * rank key + 3 ≤ n → Answers E sc ls (ref E (some si) n) key (ans key) := by
    intro key hk n hle
    have h := sheets_answers hr ht hf hn (rank key + 1) key hk (Nat.lt_succ_self _)
    have e : ans key = h.choose := dif_pos h
    rw [e]
    exact h.choose_spec n (by omega)
  refine ⟨ans, fun key hk => ⟨hans key hk, fun st hb => ?_⟩⟩
  obtain ⟨stv, v, hst, hv, h⟩ := sheets_nested hr ht hf hn hk (ans := ans) (m := 2 * rank key) (fun t ht' x fs' hx => by
    obtain ⟨b1, b2, b3⟩ := hr.refs key hk.1 t ht' x fs' hx
    exact hans x ⟨b1, b3⟩ _ (by omega)) hb
  have h1 := h.2.2 ⟨sc, .call⟩ rfl [] []
  rw [(hans key hk (2 * rank key + 3) (Nat.le_refl _)).2.2 ⟨sc, .call⟩ rfl [] []] at h1
  have e : (ans key).bind (fieldOf []) = v.bind (fieldOf []) := by injection h1 with h1; injection h1
  have e0 : ∀ o : Option Value, o.bind (fieldOf []) = o := fun o => by cases o <;> rfl
  rw [e0, e0] at e
  exact ⟨stv, hst, e.trans hv⟩

/-- What a lookup gives, if `ans` are the answers for the keys that are referred to. -/
theorem sheets_value (he : StatelessEnv E) {s : St} (hs : Session E s) (hl : s.v.locked = []) (ht : E.top = .mux)
    (hfn : E.muxFns = some [.config, .env]) (hn : ∀ k, K k → NotEnv k) {ans : Str → Option Value}
    (hans : ∀ key, ReferredBy P E sc ls K key → ∀ n, 2 * rank key + 3 ≤ n → Answers E sc ls (ref E (some si) n) key (ans key))
    {root st : Str} (hk : K root) {opts : Entries} (hb : MergedBy (ls.map Sheet.level) root opts st)
    (hm : ∀ vs, MeantL E sc ls (templatesOf ls root) vs → P st vs) (src : Str) (fs : List Str) (ex : Option ExplOpts) :
    ∃ stv v, getStrategy st none = .ok stv ∧ v = refCombine stv (valueL E sc ans (templatesOf ls root)) ∧ Answered E sc ls root opts v ∧
      Gives E (nextInvocation s sc ex) ⟨src, .name root :: fs.map .name⟩ opts (.ok (v.bind (fieldOf fs))) := by
  have hleg := hr.legible root hk
  have hsite := hr.site
  have hroot : (⟨src, .name root :: fs.map .name⟩ : Key).root = root := rfl
  have hdig : ∀ v, (⟨src, .name root :: fs.map .name⟩ : Key).digPure v = fieldOf fs v := fun v => digParts_fields fs v
  obtain ⟨stv, v, hst, hv, a1, a2, a3⟩ := byOptions_meant hr (ans := ans) (n := 2 * rank root + 2) hleg (fun t ht' x fs' hx => by
    obtain ⟨b1, b2, b3⟩ := hr.refs root hk t ht' x fs' hx
    exact hans x ⟨b1, b3⟩ _ (by omega)) hb hm
  refine ⟨stv, v, hst, hv, a1, (C82_answer_partial E he ht hfn hs hl sc ex (by exact hleg.ordinary) (by exact hn root hk) opts _).2
    ⟨1, 2 * rank root + 3, ?_⟩⟩
  unfold commandAnswer
  rw [← Ans.bind_assoc, hsite, Ans.pure_bind, hroot]
  show (ByOptions E si (2 * rank root + 3) sc opts root >>= _) = _
  rw [a3, Ans.pure_bind]
  cases v with
  | none => rfl
  | some w =>
    simp only
    rw [refInterp_unmarked true (noPercent_marked (a2 w rfl).1), Ans.pure_bind]
    show some (Res.ok _) = some (Res.ok _)
    rw [Option.bind_some, Option.bind_some, hdig]

end

theorem sheets_lookup {E : Env} (he : StatelessEnv E) {s : St} (hs : Session E s) (hl : s.v.locked = []) {sc : Scope} {ls : List Sheet}
    {K : Str → Prop} {rank : Str → Nat} {P : Str → List Value → Prop} {si : Site} (hr : Sheeted P E sc ls K rank si) {root st : Str} (hk : K root) (htop : ReferringTop E ls K root)
    {opts : Entries} (hb : MergedBy (ls.map Sheet.level) root opts st)
    (hm : ∀ vs, MeantL E sc ls (templatesOf ls root) vs → P st vs) {fs : List Str} (hf : ∀ f ∈ fs, KeyPart f) (ex : Option ExplOpts) :
    ∃ k v, newKey (joinDots (root :: fs)) = .ok k ∧ Answered E sc ls root opts v ∧
      Gives E (nextInvocation s sc ex) k opts (.ok (v.bind (fieldOf fs))) := by
  have hleg := hr.legible root hk
  have hsite := hr.site
  have hkey : newKey (joinDots (root :: fs)) = .ok ⟨joinDots (root :: fs), .name root :: fs.map .name⟩ := segments_key (by simp) (fun y hy => by
    rcases List.mem_cons.1 hy with rfl | hy
    · exact hleg.part
    · exact hf y hy)
  have hroot : (⟨joinDots (root :: fs), .name root :: fs.map .name⟩ : Key).root = root := rfl
  have hdig : ∀ v, (⟨joinDots (root :: fs), .name root :: fs.map .name⟩ : Key).digPure v = fieldOf fs v := fun v => digParts_fields fs v
  rcases htop with ⟨ht, hfn, hn⟩ | ⟨ht, hno⟩
  · obtain ⟨ans, hans⟩ := sheets_refs hr ht hfn hn
    obtain ⟨_, v, _, _, a1, a2⟩ := sheets_value hr he hs hl ht hfn hn (fun key h => (hans key h).1) hk hb hm (joinDots (root :: fs)) fs ex
    exact ⟨_, v, hkey, a1, a2⟩
  · have hnk : newKey root = .ok ⟨root, [.name root]⟩ := by simpa [joinDots] using segments_key (xs := [root]) (by simp) (by simpa using hleg.part)
    have hsaid := hr.strategy hleg.options hb
    have ha : ∀ t ∈ templatesOf ls root, ∀ x fs, DataPiece.key x fs ∈ t.uses → Answers E sc ls (ref E (some si) 1) x none :=
      fun t ht' x fs' hx => absurd hx (hno t ht' x fs')
    obtain ⟨_, stv, _, hst, _⟩ := hierarchy_meant hr (ans := fun _ => none) (r := ref E (some si) 1) (C := ⟨sc, .call⟩)
      (fun v hv => interp_unmarked true (noPercent_unmarked hv)) rfl hleg ha hm
    obtain ⟨h1, stv', v, hst', _, h2, _, h3, h5⟩ := hierarchy_meant hr (ans := fun _ => none) (r := ref E (some si) 1) (C := ⟨sc, .value (some stv)⟩)
      (fun v hv => interp_unmarked true (noPercent_unmarked hv)) rfl hleg ha hm
    rw [hst] at hst'
    cases hst'
    refine ⟨_, v, hkey, .merge h1 hb h3, (C81_answer E he hs hl sc ex _ opts _).2 ⟨1, 1, ?_⟩⟩
    unfold refAnswer
    rw [if_neg (by exact hleg.ordinary), ← Ans.bind_assoc, hsite, Ans.pure_bind]
    unfold refLookup
    rw [if_neg (by exact hleg.ordinary), ht, hroot]
    show (refConfig E (some si) (ref E (some si) 1) ⟨sc, .call⟩ opts root >>= _) = _
    unfold refConfig
    have e1 : strategyNamed (refMergeOption opts (si.optionsOf ⟨root, [.name root]⟩)) = (st, none) := hsaid.1
    have e2 : extractConversion E (si.optionsOf ⟨root, [.name root]⟩) = .ok none := hsaid.2
    simp only [hnk, Ans.of_ok_bind, e1, e2, hst, h2, Ans.pure_bind]
    cases v with
    | none => rfl
    | some w =>
      show (do let r ← refInterp E (ref E (some si) 1) _ true w; pure (r.bind _) : Ans (Option Value)) = _
      rw [refInterp_unmarked true (noPercent_marked (h5 w rfl).1), Ans.pure_bind]
      show some (Res.ok _) = some (Res.ok _)
      rw [Option.bind_some, Option.bind_some, hdig]

/-- An ordinary set-up. -/
theorem referring_sheeted {E : Env} {sc : Scope} {ls : List Sheet} {K : Str → Prop} {rank : Str → Nat} (hr : Referring E sc ls K rank) :
    Sheeted Mergeable E sc ls K rank (siteOf E sc ls) where
  site := refSite_ordinary hr.setup 0 hr.options
  strategy := fun ho hb => strategy_said hr.setup _ ho hb
  hierarchy := fun r C key st stv ns h hw hst hm => by
    rw [← (outcome_combine hst hm.2.2).1, ← refMerge_pure, ← h]
    unfold refHierarchy siteOf
    rw [List.map_map, List.map_congr_left (fun l hl => ?_)]
    exact refEntry_read hr.setup hl r C ⟨key, [.name key]⟩ stv
  mergeable := fun h => h
  rendered := hr.rendered
  legible := hr.legible
  refs := hr.refs

/-- C97: in an ordinary set-up whose data refers to variables and, without cycles, to other keys, a lookup gives the merge of what the
data of the levels means, where references mean the values of the variables and the answers for the other keys. -/
theorem C97_referring {E : Env} (he : StatelessEnv E) {s : St} (hs : Session E s) (hl : s.v.locked = []) {sc : Scope} {ls : List Sheet}
    {K : Str → Prop} {rank : Str → Nat} (hr : Referring E sc ls K rank) {root st : Str} (hk : K root) (htop : ReferringTop E ls K root)
    {opts : Entries} (hb : MergedBy (ls.map Sheet.level) root opts st)
    (hm : ∀ vs, MeantL E sc ls (templatesOf ls root) vs → Mergeable st vs) {fs : List Str} (hf : ∀ f ∈ fs, KeyPart f) (ex : Option ExplOpts) :
    ∃ k v, newKey (joinDots (root :: fs)) = .ok k ∧ Answered E sc ls root opts v ∧
      Gives E (nextInvocation s sc ex) k opts (.ok (v.bind (fieldOf fs))) :=
  sheets_lookup he hs hl (referring_sheeted hr) hk htop hb hm hf ex

namespace Referring97

def nodeData : List (Str × Template) := [
  ("app::port".toList, .plain (.int 8080)),
  ("app::settings".toList, .map [("names".toList, .arr [.text [.var "node".toList ["name".toList]]]), ("debug".toList, .plain (.bool true))])]

def commonData : List (Str × Template) := [
  ("lookup_options".toList, .map [("app::settings".toList, .map [("merge".toList, .text [.text "deep".toList])])]),
  ("app::host".toList, .text [.var "node".toList ["name".toList], .text ".example.com".toList]),
  ("app::port".toList, .plain (.int 80)),
  ("app::url".toList, .text [.text "http://".toList, .key "app::host".toList [], .text ":".toList, .key "app::port".toList []]),
  ("app::settings".toList, .map [("url".toList, .alias "app::url".toList []), ("names".toList, .arr [.text [.text "www".toList]])])]

/-- A level for each node, and a common one. -/
def sheets : List Sheet := [
  ⟨"nodes".toList, [.text "nodes/".toList, .var "node".toList ["name".toList], .text ".yaml".toList], some nodeData⟩,
  ⟨"common".toList, [.text "common.yaml".toList], some commonData⟩]

def world : Env :=
  { mk (configOf (sheets.map Sheet.level)) [("/h/data/nodes/web.yaml".toList, .map (writtenE nodeData)), ("/h/data/common.yaml".toList, .map (writtenE commonData))] with
    top := .mux, muxFns := some [.config, .env], render := fun v => if v = .int 8080 then "8080".toList else [] }

/-- The variable `node` of the invocation, and none of the session. -/
def scope : Scope := .nested (.map []) (.map [(s "node", .map [(s "name", s "web")])])

theorem scope_get (x : Str) : scope.get x = Entries.get [(s "node", .map [(s "name", s "web")])] (.str x) := by
  show (match Entries.getS _ x with | some v => some v | none => Entries.getS [] x) = _
  unfold Entries.getS
  cases Entries.get [(s "node", .map [(s "name", s "web")])] (.str x) <;> rfl

example : writtenE commonData = [
  (s "lookup_options", .map [(s "app::settings", .map [(s "merge", s "deep")])]),
  (s "app::host", s "%{node.name}.example.com"),
  (s "app::port", .int 80),
  (s "app::url", s "http://%{lookup('app::host')}:%{lookup('app::port')}"),
  (s "app::settings", .map [(s "url", s "%{alias('app::url')}"), (s "names", .arr [s "www"])])] := by decide +kernel

def keys : List Str := ["app::host".toList, "app::port".toList, "app::url".toList, "app::settings".toList]

def rank (k : Str) : Nat := if k = "app::settings".toList then 2 else if k = "app::url".toList then 1 else 0

theorem stateless : StatelessEnv world := by
  refine ⟨.inr ⟨rfl, [.env], rfl, by simp⟩, fun fs f h hf => ?_, (fun _ _ h => nomatch h), (fun _ _ _ h => nomatch h)⟩
  cases h
  rcases List.mem_cons.1 hf with h | h
  · subst h; trivial
  · rw [List.mem_singleton.1 h]; trivial

theorem ordinary : Ordinary world scope (sheets.map Sheet.level) where
  config := rfl
  named := by decide
  distinct := by decide
  paths := by
    intro l hl
    simp only [sheets, List.map_cons, List.map_nil, List.mem_cons, List.not_mem_nil, or_false] at hl
    rcases hl with rfl | rfl
    · refine ⟨by decide, fun p hp => ?_⟩
      simp only [Sheet.level, List.mem_cons, List.not_mem_nil, or_false] at hp
      rcases hp with rfl | rfl | rfl
      · show '%' ∉ _; decide
      · exact ⟨⟨by decide, by decide⟩, fun f hf => by cases List.mem_singleton.1 hf; exact ⟨by decide, by decide⟩⟩
      · show '%' ∉ _; decide
    · refine ⟨by decide, fun p hp => ?_⟩
      cases List.mem_singleton.1 hp
      show '%' ∉ _; decide
  vars := by
    intro l _ x fs _ v hv
    have : ∀ e ∈ ([(s "node", .map [(s "name", s "web")])] : Entries), marked e.2 = false := by decide
    rw [scope_get] at hv
    obtain ⟨e, he, _, rfl⟩ := Entries.get_mem hv
    exact unmarked_of_marked (this e he)
  dataDir := fun h => by have := (hasMarker_iff _).2 h; revert this; decide
  pluginDir := fun h => by have := (hasMarker_iff _).2 h; revert this; decide
  there := by
    intro l hl es he
    simp only [sheets, List.map_cons, List.map_nil, List.mem_cons, List.not_mem_nil, or_false] at hl
    rcases hl with rfl | rfl
    · cases he
      have hf : Level.file world scope (Sheet.level ⟨"nodes".toList, [.text "nodes/".toList, .var "node".toList ["name".toList], .text ".yaml".toList],
        some nodeData⟩) = "/h/data/nodes/web.yaml".toList := by decide +kernel
      rw [hf]
      refine ⟨by decide +kernel, by rfl, ?_⟩
      simp [Value.WF, WFEntries, WFList, nodeData, writtenE, writtenL, Template.written]
    · cases he
      have hf : Level.file world scope (Sheet.level ⟨"common".toList, [.text "common.yaml".toList], some commonData⟩) =
        "/h/data/common.yaml".toList := by decide +kernel
      rw [hf]
      refine ⟨by decide +kernel, by rfl, ?_⟩
      simp [Value.WF, WFEntries, WFList, commonData, writtenE, writtenL, Template.written]
  absent := by
    have : ∀ l ∈ sheets.map Sheet.level, l.data.isNone = true → world.stat (l.file world scope) = false := by decide +kernel
    exact fun l hl h => this l hl (by rw [h]; rfl)

theorem part {x : Str} (h : x ∈ keys) : RefPart x := by
  simp only [keys, List.mem_cons, List.not_mem_nil, or_false] at h
  rcases h with rfl | rfl | rfl | rfl <;>
    exact ⟨⟨by unfold Unquoted; decide, by decide, alpha_not_int (by decide)⟩, by decide⟩

theorem options : valuesOf (sheets.map Sheet.level) "lookup_options".toList =
    [.map [(s "app::settings", .map [(s "merge", s "deep")])]] := by decide +kernel

theorem host : templatesOf sheets "app::host".toList = [.text [.var "node".toList ["name".toList], .text ".example.com".toList]] := rfl
theorem port : templatesOf sheets "app::port".toList = [.plain (.int 8080), .plain (.int 80)] := rfl
theorem url : templatesOf sheets "app::url".toList =
    [.text [.text "http://".toList, .key "app::host".toList [], .text ":".toList, .key "app::port".toList []]] := rfl
theorem settings : templatesOf sheets "app::settings".toList =
    [.map [("names".toList, .arr [.text [.var "node".toList ["name".toList]]]), ("debug".toList, .plain (.bool true))],
      .map [("url".toList, .alias "app::url".toList []), ("names".toList, .arr [.text [.text "www".toList]])]] := rfl

theorem name_ok : (DataPiece.var "node".toList ["name".toList]).Ok :=
  ⟨⟨by decide, by decide⟩, fun f hf => by cases List.mem_singleton.1 hf; exact ⟨by decide, by decide⟩⟩

theorem key_ok {x : Str} (h : x ∈ keys) : (DataPiece.key x []).Ok := ⟨part h, fun _ h => nomatch h⟩

theorem written {k : Str} (hk : k ∈ keys) : ∀ t ∈ templatesOf sheets k, t.Ok := by
  simp only [keys, List.mem_cons, List.not_mem_nil, or_false] at hk
  rcases hk with rfl | rfl | rfl | rfl
  · rw [host]
    simp only [List.mem_cons, List.not_mem_nil, or_false, forall_eq, Template.Ok, forall_eq_or_imp]
    exact ⟨name_ok, by show '%' ∉ _; decide⟩
  · rw [port]
    simp only [List.mem_cons, List.not_mem_nil, or_false, forall_eq, Template.Ok, forall_eq_or_imp]
    exact ⟨⟨(fun _ h => nomatch h), trivial⟩, (fun _ h => nomatch h), trivial⟩
  · rw [url]
    simp only [List.mem_cons, List.not_mem_nil, or_false, forall_eq, Template.Ok, forall_eq_or_imp]
    exact ⟨by show '%' ∉ _; decide, key_ok (by decide), by show '%' ∉ _; decide, key_ok (by decide)⟩
  · rw [settings]
    simp only [List.mem_cons, List.not_mem_nil, or_false, forall_eq, Template.Ok, forall_eq_or_imp, OkE, OkL, and_true]
    exact ⟨⟨⟨by decide, name_ok, by decide, (fun _ h => nomatch h), trivial⟩, by decide⟩,
      ⟨by decide, ⟨part (by decide), fun _ h => nomatch h⟩, by decide, by show '%' ∉ _; decide⟩, by decide⟩

theorem vars {x : Str} {v : Value} (h : scope.get x = some v) : NoPercent v := by
  rw [scope_get] at h
  obtain ⟨e, he, _, rfl⟩ := Entries.get_mem h
  cases List.mem_singleton.1 he
  intro t ht
  cases ht with
  | key hm ho =>
    cases List.mem_singleton.1 hm
    cases ho
    decide
  | val hm ho =>
    cases List.mem_singleton.1 hm
    cases ho
    decide

theorem legible {k : Str} (hk : k ∈ keys) : Legible world scope sheets k where
  part := (part hk).1
  ordinary := by rintro rfl; revert hk; decide
  written := written hk
  vars := fun _ _ _ _ _ _ h => vars h
  options := by
    rw [options]
    intro v hv
    cases List.mem_singleton.1 hv
    refine ⟨_, rfl, fun o ho => ?_⟩
    obtain ⟨e, he, _, rfl⟩ := Entries.get_mem ho
    cases List.mem_singleton.1 he
    refine ⟨_, rfl, by decide +kernel, fun m hm => ?_⟩
    obtain ⟨e, he, _, rfl⟩ := Entries.get_mem hm
    cases List.mem_singleton.1 he
    exact ⟨_, rfl⟩

theorem first {x : Str} (hx : x = "app::host".toList ∨ x = "app::port".toList ∨ x = "app::url".toList) (vs : List Value) (st : Str)
    (h : MergedBy (sheets.map Sheet.level) x [] st) : Mergeable st vs := by
  have hn : (valuesOf (sheets.map Sheet.level) "lookup_options".toList).findSome? (mergeIn x) = none := by
    rcases hx with rfl | rfl | rfl <;> decide +kernel
  cases h with
  | asked h => cases h
  | said _ h => rw [hn] at h; cases h
  | default => exact ⟨by decide, fun h => absurd h (by decide), fun h => absurd h (by decide)⟩

/-- The set-up of the examples: settings refer to the address, which refers to the host and the port. -/
theorem referring : Referring world scope sheets (· ∈ keys) rank where
  setup := ordinary
  rendered := by
    intro v _
    show '%' ∉ (if v = .int 8080 then "8080".toList else [])
    split <;> decide
  options := by
    rw [options]
    intro v hv
    cases List.mem_singleton.1 hv
    exact unmarked_of_marked (by decide +kernel)
  legible := fun _ => legible
  refs := by
    intro k hk t ht x fs hx
    simp only [keys, List.mem_cons, List.not_mem_nil, or_false] at hk
    rcases hk with rfl | rfl | rfl | rfl
    · rw [host] at ht
      cases List.mem_singleton.1 ht
      simp [Template.uses] at hx
    · rw [port] at ht
      simp only [List.mem_cons, List.not_mem_nil, or_false] at ht
      rcases ht with rfl | rfl <;> cases hx
    · rw [url] at ht
      cases List.mem_singleton.1 ht
      simp only [Template.uses, List.mem_cons, List.not_mem_nil, or_false, reduceCtorEq, false_or, DataPiece.key.injEq] at hx
      rcases hx with ⟨rfl, rfl⟩ | ⟨rfl, rfl⟩
      · exact ⟨by decide, by decide, fun vs st _ h => first (.inl rfl) vs st h⟩
      · exact ⟨by decide, by decide, fun vs st _ h => first (.inr (.inl rfl)) vs st h⟩
    · rw [settings] at ht
      simp only [List.mem_cons, List.not_mem_nil, or_false] at ht
      rcases ht with rfl | rfl
      · simp [Template.uses, usesE, usesL] at hx
      · simp only [Template.uses, usesE, usesL, List.append_nil, List.mem_append, List.mem_cons, List.not_mem_nil, or_false, reduceCtorEq,
          DataPiece.key.injEq] at hx
        obtain ⟨rfl, rfl⟩ := hx
        exact ⟨by decide, by decide, fun vs st _ h => first (.inr (.inr rfl)) vs st h⟩

example : ∃ k v, newKey "app::settings.url".toList = .ok k ∧ Answered world scope sheets "app::settings".toList [] v ∧
    Gives world (newInvocation scope none) k [] (.ok (v.bind (fieldOf ["url".toList]))) :=
  C97_referring stateless (.start scope none) rfl referring (K := (· ∈ keys)) (root := "app::settings".toList) (by decide)
    (.inl ⟨rfl, rfl, fun k hk => by
      simp only [keys, List.mem_cons, List.not_mem_nil, or_false] at hk
      rcases hk with rfl | rfl | rfl | rfl <;> exact ⟨by decide, by decide⟩⟩)
    (st := "deep".toList) (.said rfl (by decide +kernel))
    (fun vs _ => ⟨by decide, fun h => absurd h (by decide), fun h => absurd h (by decide)⟩) (fs := ["url".toList])
    (fun f hf => by cases List.mem_singleton.1 hf; exact ⟨by unfold Unquoted; decide, by decide, alpha_not_int (by decide)⟩) none

/-- The answer is the address. -/
example : ∃ k, newKey "app::settings.url".toList = .ok k ∧ Gives world (newInvocation scope none) k []
    (.ok (some (s "http://web.example.com:8080"))) := by
  refine ⟨⟨"app::settings.url".toList, [.name "app::settings".toList, .name "url".toList]⟩, by decide +kernel, ?_⟩
  exact (C81_answer world stateless (.start scope none) rfl scope none _ [] _).2 (answer_of (n := 1) (m := 8) (by decide +kernel))

end Referring97

end Hiera
