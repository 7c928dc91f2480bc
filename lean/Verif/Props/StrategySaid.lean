import Verif.Spec.StrategySaid
import Verif.Props.Conversions

/-!
# C118: merge options that are a hash
-/

set_option autoImplicit false

namespace Hiera

open Value Spec

/-! ### What the levels say -/

/-- What is said about a matter, where two say something. -/
inductive SaidBoth : Option Value → Option Value → Option Value → Prop
  | right {y} : SaidBoth none y y
  | left {x} : SaidBoth (some x) none (some x)
  | both {x y z} : DeepMerged x y z → SaidBoth (some x) (some y) (some z)

theorem getS_both {f : Str} {xs ys zs : Entries} (hm : DeepMerged (.map xs) (.map ys) (.map zs)) :
    SaidBoth (Entries.getS xs f) (Entries.getS ys f) (Entries.getS zs f) := by
  have ws : WF (.str f) := by simp [WF]
  cases hm with
  | other h => exact absurd trivial h
  | @maps _ _ zs g1 g2 g3 g4 =>
    cases hx : Entries.getS xs f with
    | none =>
      cases hy : Entries.getS ys f with
      | none =>
        have : Entries.getS zs f = none := (g1 _ ws).2 ⟨hx, hy⟩
        rw [this]; exact .right
      | some y =>
        have : Entries.getS zs f = some y := g3 _ _ ws hx hy
        rw [this]; exact .right
    | some x =>
      cases hy : Entries.getS ys f with
      | none =>
        have : Entries.getS zs f = some x := g2 _ _ ws hx hy
        rw [this]; exact .left
      | some y =>
        cases hz : Entries.getS zs f with
        | none => exact absurd ((g1 _ ws).1 hz).1 (by rw [Entries.getS] at hx; rw [hx]; simp)
        | some z => exact .both (g4 _ x y z ws hx hy hz)

theorem deepMerged_map {xs ys : Entries} {z : Value} (hm : DeepMerged (.map xs) (.map ys) z) : ∃ zs, z = .map zs := by
  cases hm with
  | maps => exact ⟨_, rfl⟩
  | other h => exact absurd trivial h

theorem deep_both {key : Str} {a b : Value} (ha : OptionsSay key a) (hb : OptionsSay key b) (wa : WF a) (wb : WF b) (f : Str) :
    SaidBoth (saidIn f key a) (saidIn f key b) (saidIn f key (deep a b).1) := by
  obtain ⟨as, rfl, ha⟩ := ha
  obtain ⟨bs, rfl, hb⟩ := hb
  have hd := C10_deep (.map as) (.map bs) wa wb
  show SaidBoth _ _ (saidIn f key (deepMerge (.map as) (.map bs)).1)
  generalize (deepMerge (.map as) (.map bs)).1 = r at hd
  obtain ⟨rs, rfl⟩ := deepMerged_map hd
  have hk := getS_both (f := key) hd
  simp only [saidIn_map]
  cases hx : Entries.getS as key with
  | none =>
    rw [hx] at hk
    generalize Entries.getS bs key = y at hk ⊢
    generalize Entries.getS rs key = z at hk ⊢
    cases hk
    exact .right
  | some x =>
    rw [hx] at hk
    obtain ⟨xs, rfl⟩ := ha x hx
    cases hy : Entries.getS bs key with
    | none =>
      rw [hy] at hk
      generalize Entries.getS rs key = z at hk ⊢
      cases hk
      rw [Option.bind_some, Option.bind_none, valueAt_one]
      cases Entries.getS xs f
      · exact .right
      · exact .left
    | some y =>
      rw [hy] at hk
      obtain ⟨ys, rfl⟩ := hb y hy
      generalize Entries.getS rs key = z at hk ⊢
      cases hk with
      | both hm =>
        obtain ⟨zs, rfl⟩ := deepMerged_map hm
        simp only [Option.bind_some, valueAt_one]
        exact getS_both hm

/-- What is said with strings and hashes, merged: the first one if it is a string, and else a hash with the first strategy. -/
structure SaidAs (ms : List Value) (r : Option Value) : Prop where
  none : ms = [] → r = none
  name : ∀ n ms', ms = .str n :: ms' → r = some (.str n)
  hash : ∀ m ms', ms = .map m :: ms' → (∀ v ∈ ms, ∀ x, strategyIn v = some x → ∃ n, x = .str n) →
    ∃ rs, r = some (.map rs) ∧ Entries.getS rs "strategy".toList = ms.findSome? strategyIn

theorem saidAs_one (v : Option Value) : SaidAs v.toList v := by
  refine ⟨fun h => ?_, fun n ms' h => ?_, fun m ms' h _ => ?_⟩
  · cases v
    · rfl
    · cases h
  · cases v
    · cases h
    · cases h; rfl
  · cases v
    · cases h
    · cases h
      refine ⟨m, rfl, ?_⟩
      simp only [Option.toList, List.findSome?, strategyIn, valueAt_one]
      cases Entries.getS m "strategy".toList <;> rfl

theorem saidAs_chain {key f : Str} : ∀ (vs : List Value) (v : Value), (∀ w ∈ v :: vs, OptionsSay key w ∧ WF w) →
    SaidAs ((v :: vs).filterMap (saidIn f key)) (saidIn f key (vs.foldl (Strategy.deep []).merge v))
  | [], v, h => by
    rw [List.foldl_nil, List.filterMap_cons, List.filterMap_nil]
    have := saidAs_one (saidIn f key v)
    cases hv : saidIn f key v <;> rw [hv] at this <;> exact this
  | w :: vs, v, h => by
    have hv := h v (by simp)
    have hw := h w (by simp)
    have hm : (Strategy.deep []).merge v w = (deep v w).1 := rfl
    have hb := deep_both hv.1 hw.1 hv.2 hw.2 f
    have ih := saidAs_chain (f := f) vs (deep v w).1 (fun x hx => by
      rcases List.mem_cons.1 hx with rfl | hx
      · exact ⟨(deep_said hv.1 hw.1 hv.2 hw.2).1, deep_WF hv.2 hw.2⟩
      · exact h x (by simp [hx]))
    rw [List.foldl_cons, hm]
    generalize saidIn f key (vs.foldl (Strategy.deep []).merge (deep v w).1) = r at ih ⊢
    rw [List.filterMap_cons] at ih
    rw [List.filterMap_cons, List.filterMap_cons]
    generalize saidIn f key v = x at hb ⊢
    generalize saidIn f key w = y at hb ⊢
    generalize saidIn f key (deep v w).1 = z at hb ih
    generalize vs.filterMap (saidIn f key) = ms at ih ⊢
    cases hb with
    | right => exact ih
    | left => exact ih
    | @both x y z hd =>
      dsimp only at ih ⊢
      refine ⟨nofun, fun n ms' h => ?_, fun m ms' h hall => ?_⟩
      · cases h
        have : z = .str n := by cases hd; rfl
        exact ih.name n ms (by rw [this])
      · cases h
        by_cases hy : ∃ ys, y = .map ys
        · obtain ⟨ys, rfl⟩ := hy
          obtain ⟨zs, rfl⟩ := deepMerged_map hd
          have hs := getS_both (f := "strategy".toList) hd
          have h1 : strategyIn (.map m) = Entries.getS m "strategy".toList := valueAt_one _ _
          have h2 : strategyIn (.map ys) = Entries.getS ys "strategy".toList := valueAt_one _ _
          have h3 : strategyIn (.map zs) = Entries.getS zs "strategy".toList := valueAt_one _ _
          have hz : Entries.getS zs "strategy".toList = (Entries.getS m "strategy".toList).or (Entries.getS ys "strategy".toList) := by
            cases hx : Entries.getS m "strategy".toList with
            | none =>
              rw [hx] at hs
              generalize Entries.getS zs "strategy".toList = c at hs
              cases hs
              simp
            | some a =>
              obtain ⟨n, rfl⟩ := hall _ (List.mem_cons_self ..) a (h1.trans hx)
              rw [hx] at hs
              generalize Entries.getS zs "strategy".toList = c at hs
              generalize Entries.getS ys "strategy".toList = b at hs
              cases hs with
              | left => rfl
              | both hd => cases hd; rfl
          have hall' : ∀ v ∈ Value.map zs :: ms, ∀ x, strategyIn v = some x → ∃ n, x = .str n := by
            intro v hv x hx
            rcases List.mem_cons.1 hv with rfl | hv
            · rw [h3, hz] at hx
              cases ha : Entries.getS m "strategy".toList with
              | none =>
                rw [ha] at hx
                exact hall (.map ys) (by simp) x (by rw [h2]; simpa using hx)
              | some a =>
                rw [ha] at hx
                exact hall (.map m) (by simp) x (by rw [h1, ha]; simpa using hx)
            · exact hall v (by simp [hv]) x hx
          obtain ⟨rs, e1, e2⟩ := ih.hash zs ms rfl hall'
          refine ⟨rs, e1, e2.trans ?_⟩
          simp only [List.findSome?, h1, h2, h3, hz]
          cases Entries.getS m "strategy".toList <;> cases Entries.getS ys "strategy".toList <;> rfl
        · have hz : z = .map m := by
            cases hd with
            | maps => exact absurd ⟨_, rfl⟩ hy
            | other => rfl
          subst hz
          obtain ⟨rs, e1, e2⟩ := ih.hash m ms rfl (fun v hv => hall v (by
            rcases List.mem_cons.1 hv with rfl | hv
            · simp
            · simp [hv]))
          refine ⟨rs, e1, e2.trans ?_⟩
          have : strategyIn y = none := by
            cases y with
            | map ys => exact absurd ⟨_, rfl⟩ hy
            | _ => rfl
          simp only [List.findSome?, this]

/-- What the lookup options of the levels, merged, say about a matter that is said with strings and hashes. -/
theorem saidAs_of {ls : List Level} {key : Str} (hwf : ∀ v ∈ valuesOf ls "lookup_options".toList, WF v)
    (hopt : ∀ v ∈ valuesOf ls "lookup_options".toList, OptionsSay key v) (f : Str) :
    SaidAs (saidOf f key ls)
      (((asMap (outcome (.deep []) ls "lookup_options".toList)).bind (fun m => asMap (Entries.getS m key))).bind (fun m => Entries.getS m f)) := by
  have hs : outcome (.deep []) ls "lookup_options".toList = refCombine (.deep []) (valuesOf ls "lookup_options".toList) := by
    match ls with
    | [] => rfl
    | [l] =>
      rw [valuesOf_cons]
      show (l.has "lookup_options".toList).map (Strategy.single (.deep [])) = _
      cases l.has "lookup_options".toList <;> rfl
    | a :: b :: ls => rfl
  rw [hs]
  unfold saidOf
  cases hv : valuesOf ls "lookup_options".toList with
  | nil => exact saidAs_one none
  | cons v vs =>
    have hall : ∀ w ∈ v :: vs, OptionsSay key w ∧ WF w := fun w hw => ⟨hopt w (hv ▸ hw), hwf w (hv ▸ hw)⟩
    have h := saidAs_chain (f := f) vs v hall
    obtain ⟨⟨es, he, h1⟩, _⟩ := said_chain vs v hall
    show SaidAs _ (((asMap (some (vs.foldl (Strategy.deep []).merge v))).bind (fun m => asMap (Entries.getS m key))).bind (fun m => Entries.getS m f))
    rw [he, saidIn_map] at h
    rw [he]
    show SaidAs _ ((asMap (Entries.getS es key)).bind _)
    cases ho : Entries.getS es key with
    | none => rw [ho] at h; exact h
    | some o =>
      obtain ⟨os, rfl⟩ := h1 o ho
      rw [ho, Option.bind_some, valueAt_one] at h
      exact h

/-! ### The question -/

/-- The lookup of a key in an ordinary set-up. -/
structure Spec.AskedAbout (E : Env) (sc : Scope) (ls : List Level) (root : Str) : Prop where
  setup : Ordinary E sc ls
  top : UsualTop E root
  part : KeyPart root
  ordinary : root ≠ "lookup_options".toList
  values : ∀ v ∈ valuesOf ls root, Unmarked v
  options : ∀ v ∈ valuesOf ls "lookup_options".toList, Unmarked v ∧ OptionsSay root v

/-- Here the strategy is `st`, said by name or with a hash, and `ty` is what the highest level that says so says about a conversion. -/
structure Spec.AskedWith (E : Env) (sc : Scope) (ls : List Level) (root : Str) (opts : Entries) (st : Str) (ty : Option Value) : Prop
    extends AskedAbout E sc ls root where
  merge : StrategySaid ls root opts st
  conversion : (saidOf "convert_to".toList root ls).head? = ty

theorem strategyNamed_hash {m : Entries} {st : Str} (h : Entries.getS m "strategy".toList = some (.str st)) :
    ∃ mo, strategyNamed (some (.map m)) = (st, mo) := by
  unfold strategyNamed
  simp only [h]
  exact ⟨_, rfl⟩

theorem strategy_either {ls : List Level} {root : Str} {opts : Entries} {st : Str} {ty : Option Value}
    (hwf : ∀ v ∈ valuesOf ls "lookup_options".toList, WF v) (hopt : ∀ v ∈ valuesOf ls "lookup_options".toList, OptionsSay root v)
    (hmerge : StrategySaid ls root opts st) (hty : (saidOf "convert_to".toList root ls).head? = ty)
    (honce : SaidOnce (saidOf "convert_to".toList root ls)) (es : List Entry) :
    let x : Site := ⟨es, asMap (outcome (.deep []) ls "lookup_options".toList)⟩
    ∃ mo, strategyNamed (refMergeOption opts (x.optionsOf ⟨root, [.name root]⟩)) = (st, mo) ∧
      (x.optionsOf ⟨root, [.name root]⟩).bind (fun m => Entries.getS m "convert_to".toList) = ty := by
  intro x
  have h1 := said_of hwf hopt "convert_to".toList honce
  have h2 := saidAs_of hwf hopt "merge".toList
  have e : x.optionsOf ⟨root, [.name root]⟩ = (asMap (outcome (.deep []) ls "lookup_options".toList)).bind (fun m => asMap (Entries.getS m root)) := by
    show (match asMap (outcome (.deep []) ls "lookup_options".toList) with | some lo => asMap (Entries.getS lo root) | none => none) = _
    cases asMap (outcome (.deep []) ls "lookup_options".toList) <;> rfl
  rw [← e] at h1 h2
  have e2 : Entries.getS opts "merge".toList = none →
      refMergeOption opts (x.optionsOf ⟨root, [.name root]⟩) = (x.optionsOf ⟨root, [.name root]⟩).bind (fun m => Entries.getS m "merge".toList) := fun h => by
    unfold refMergeOption
    rw [h]
    cases x.optionsOf ⟨root, [.name root]⟩ <;> rfl
  generalize (x.optionsOf ⟨root, [.name root]⟩).bind (fun m => Entries.getS m "merge".toList) = r at h2 e2
  suffices h : ∃ mo, strategyNamed (refMergeOption opts (x.optionsOf ⟨root, [.name root]⟩)) = (st, mo) from
    h.imp fun mo h => ⟨h, h1.trans hty⟩
  cases hmerge with
  | asked h =>
    unfold refMergeOption
    rw [h]
    exact ⟨_, rfl⟩
  | askedWith h h' =>
    unfold refMergeOption
    rw [h]
    exact strategyNamed_hash h'
  | said h h' =>
    obtain ⟨ms, hms⟩ : ∃ ms, saidOf "merge".toList root ls = .str st :: ms := by
      cases hx : saidOf "merge".toList root ls with
      | nil => rw [hx] at h'; cases h'
      | cons a as => rw [hx] at h'; cases h'; exact ⟨_, rfl⟩
    rw [e2 h, h2.name _ _ hms]
    exact ⟨_, rfl⟩
  | @saidWith m _ h h' hall hst =>
    obtain ⟨ms, hms⟩ : ∃ ms, saidOf "merge".toList root ls = .map m :: ms := by
      cases hx : saidOf "merge".toList root ls with
      | nil => rw [hx] at h'; cases h'
      | cons a as => rw [hx] at h'; cases h'; exact ⟨_, rfl⟩
    obtain ⟨rs, h3, h4⟩ := h2.hash _ _ hms hall
    rw [e2 h, h3]
    exact strategyNamed_hash (h4.trans hst)
  | default h h' =>
    rw [e2 h, h2.none h']
    exact ⟨_, rfl⟩

theorem askedWith_strategy {E : Env} {sc : Scope} {ls : List Level} {root : Str} {opts : Entries} {st : Str} {ty : Option Value}
    (hq : AskedWith E sc ls root opts st ty) (honce : SaidOnce (saidOf "convert_to".toList root ls)) (es : List Entry) :
    let x : Site := ⟨es, asMap (outcome (.deep []) ls "lookup_options".toList)⟩
    ∃ mo, strategyNamed (refMergeOption opts (x.optionsOf ⟨root, [.name root]⟩)) = (st, mo) ∧
      (x.optionsOf ⟨root, [.name root]⟩).bind (fun m => Entries.getS m "convert_to".toList) = ty :=
  strategy_either (fun _ hv => valuesOf_WF hq.setup hv) (fun v hv => (hq.options v hv).2) hq.merge hq.conversion honce es

/-! ### Strategies with options -/

theorem outcome_deep (o : Entries) (ls : List Level) (key : Str) : outcome (.deep o) ls key = outcome (.deep []) ls key := by
  match ls with
  | [] => rfl
  | [l] => rfl
  | a :: b :: ls => rfl

/-- The options do not change what the strategy does. -/
theorem strategy_options {st : Str} {mo : Option Entries} {stv : Strategy} (h : getStrategy st none = .ok stv) :
    ∃ stv', getStrategy st mo = .ok stv' ∧ (∀ ls key, outcome stv' ls key = outcome stv ls key) ∧ stv'.convertValue = stv.convertValue := by
  have hs : getStrategy st mo = (match getStrategy st none with | .ok (.deep _) => .ok (.deep (mo.getD [])) | r => r) := by
    unfold getStrategy
    split
    · rfl
    split
    · rfl
    split
    · rfl
    split <;> rfl
  rw [h] at hs
  cases stv with
  | deep o => exact ⟨_, hs, fun ls key => (outcome_deep _ ls key).trans (outcome_deep _ ls key).symm, rfl⟩
  | _ => exact ⟨_, hs, fun _ _ => rfl, rfl⟩

/-- C117, partially, where the strategy may be said with a hash: in an ordinary set-up, a lookup gives the merge of the values by the strategy that is said by name or with a hash,
converted to the type that the highest level that says so says. Missing: levels that say the conversion with more than one array. -/
theorem C117_hash_partial {E : Env} (he : StatelessEnv E) {s : St} (hs : Session E s) (hl : s.v.locked = []) {sc : Scope} {ls : List Level}
    {root st : Str} {opts : Entries} {ty : Option Value} (hq : AskedWith E sc ls root opts st ty)
    (honce : SaidOnce (saidOf "convert_to".toList root ls))
    {c : Option (Nat × Option (List Value))} (ht : TypeSaid E ty c) (hm : Mergeable st (valuesOf ls root)) {fs : List Str}
    (hf : ∀ f ∈ fs, KeyPart f) (ex : Option ExplOpts) :
    ∃ k v, newKey (joinDots (root :: fs)) = .ok k ∧ Textbook st (valuesOf ls root) v ∧
      ∀ r, Converted E c v r → (∀ y, r = .ok (some y) → Unmarked y) → Gives E (nextInvocation s sc ex) k opts (fieldOfMade fs r) := by
  obtain ⟨stv, hst⟩ := mergeable_strategy hm
  obtain ⟨mo, hsaid⟩ := askedWith_strategy hq honce (ls.map (resolvedOf E sc))
  obtain ⟨stv', hst', ho, hc⟩ := strategy_options (mo := mo) hst
  obtain ⟨v, lo, h1, h2, _, h3⟩ := said_answer he hs hl hq.setup hq.top hq.part hq.ordinary hq.values (fun v hv => (hq.options v hv).1)
    hsaid (joinDots (root :: fs)) fs ex hst'
  refine ⟨_, v, segments_key (by simp) (fun y hy => ?_), ?_, fun r hr hu => h3 c r (extract_said h2 ht) (convert_of hr) hu⟩
  · rcases List.mem_cons.1 hy with rfl | hy
    · exact hq.part
    · exact hf y hy
  · have := outcome_textbook (fun v hv => valuesOf_WF hq.setup hv) hst hm
    rw [ho, hc] at h1
    rcases h1 with rfl | rfl
    · exact this.1
    · exact this.2

/-- C118: if no level says something about a conversion, then this is the merge, and what it has in the place of a dotted key. -/
theorem C118_textbook {E : Env} (he : StatelessEnv E) {s : St} (hs : Session E s) (hl : s.v.locked = []) {sc : Scope} {ls : List Level}
    {root st : Str} {opts : Entries} (ha : AskedAbout E sc ls root) (hsaid : StrategySaid ls root opts st)
    (hc : saidOf "convert_to".toList root ls = []) (hm : Mergeable st (valuesOf ls root)) {fs : List Str}
    (hf : ∀ f ∈ fs, KeyPart f) (ex : Option ExplOpts) :
    ∃ k v, newKey (joinDots (root :: fs)) = .ok k ∧ Textbook st (valuesOf ls root) v ∧
      Gives E (nextInvocation s sc ex) k opts (.ok (v.bind (fieldOf fs))) := by
  have hq : AskedWith E sc ls root opts st none := ⟨ha, hsaid, by rw [hc]; rfl⟩
  obtain ⟨stv, hst⟩ := mergeable_strategy hm
  obtain ⟨mo, hsaid⟩ := askedWith_strategy hq (by rw [hc]; exact .nil) (ls.map (resolvedOf E sc))
  obtain ⟨stv', hst', ho, hc'⟩ := strategy_options (mo := mo) hst
  obtain ⟨v, lo, h1, h2, _, h3⟩ := said_answer he hs hl hq.setup hq.top hq.part hq.ordinary hq.values (fun v hv => (hq.options v hv).1)
    hsaid (joinDots (root :: fs)) fs ex hst'
  have hclean := outcome_clean (p := fun s => ¬Marked s) stv' hq.values
  refine ⟨_, v, segments_key (by simp) (fun y hy => ?_), ?_, h3 none (.ok v) (extract_said h2 .asIs) (by cases v <;> rfl) (fun y hy => ?_)⟩
  · rcases List.mem_cons.1 hy with rfl | hy
    · exact hq.part
    · exact hf y hy
  · have := outcome_textbook (fun v hv => valuesOf_WF hq.setup hv) hst hm
    rw [ho, hc'] at h1
    rcases h1 with rfl | rfl
    · exact this.1
    · exact this.2
  · cases hy
    rcases h1 with h | h
    · exact hclean y h.symm
    · obtain ⟨x, hx, rfl⟩ := Option.map_eq_some_iff.1 h.symm
      exact clean_convertValue stv' (hclean x hx)

/-- C118: a hash that does not name a strategy makes the lookup fail, even if no level has a value for the key. -/
theorem C118_nameless {E : Env} (he : StatelessEnv E) {s : St} (hs : Session E s) (hl : s.v.locked = []) {sc : Scope} {ls : List Level}
    {root : Str} {opts : Entries} (hq : AskedAbout E sc ls root) (hn : NoStrategy ls root opts) {fs : List Str} (hf : ∀ f ∈ fs, KeyPart f) (ex : Option ExplOpts) :
    ∃ k, newKey (joinDots (root :: fs)) = .ok k ∧ Gives E (nextInvocation s sc ex) k opts (.panic (.unknownStrategy [])) := by
  have hwf : ∀ v ∈ valuesOf ls "lookup_options".toList, WF v := fun v hv => valuesOf_WF hq.setup hv
  have h2 := saidAs_of hwf (fun v hv => (hq.options v hv).2) "merge".toList
  have hk : (⟨joinDots (root :: fs), (root :: fs).map .name⟩ : Key).root = root := rfl
  have hnk : newKey root = .ok ⟨root, [.name root]⟩ := by simpa [joinDots] using segments_key (xs := [root]) (by simp) (by simpa using hq.part)
  have hsite := refSite_ordinary hq.setup 0 (fun v hv => (hq.options v hv).1)
  have hr := hq.ordinary
  have hoptsOf : ∀ es, (⟨es, asMap (outcome (.deep []) ls "lookup_options".toList)⟩ : Site).optionsOf ⟨root, [.name root]⟩ =
      (asMap (outcome (.deep []) ls "lookup_options".toList)).bind (fun m => asMap (Entries.getS m root)) := fun es => by
    show (match asMap (outcome (.deep []) ls "lookup_options".toList) with | some lo => asMap (Entries.getS lo root) | none => none) = _
    cases asMap (outcome (.deep []) ls "lookup_options".toList) <;> rfl
  generalize (asMap (outcome (.deep []) ls "lookup_options".toList)).bind (fun m => asMap (Entries.getS m root)) = lo at h2 hoptsOf
  have hstrat : strategyNamed (refMergeOption opts lo) = ([], none) := by
    cases hn with
    | asked h h' =>
      unfold refMergeOption
      rw [h]
      unfold strategyNamed
      simp only [h']
    | @said m h h' hall =>
      obtain ⟨ms, hms⟩ : ∃ ms, saidOf "merge".toList root ls = .map m :: ms := by
        cases hx : saidOf "merge".toList root ls with
        | nil => rw [hx] at h'; cases h'
        | cons a as => rw [hx] at h'; cases h'; exact ⟨_, rfl⟩
      obtain ⟨rs, h3, h4⟩ := h2.hash _ _ hms (fun v hv x hx => by rw [hall v hv] at hx; cases hx)
      have h5 : (saidOf "merge".toList root ls).findSome? strategyIn = none := List.findSome?_eq_none_iff.2 hall
      rw [h5] at h4
      have : refMergeOption opts lo = some (.map rs) := by
        unfold refMergeOption
        rw [h, ← h3]
        cases lo <;> rfl
      rw [this]
      unfold strategyNamed
      simp only [h4]
  have hst : getStrategy [] none = .panic (.unknownStrategy []) := rfl
  refine ⟨_, segments_key (xs := root :: fs) (by simp) (fun y hy => ?_), ?_⟩
  · rcases List.mem_cons.1 hy with rfl | hy
    · exact hq.part
    · exact hf y hy
  rcases hq.top with ht | ⟨ht, hf, hn⟩
  · refine (C81_answer E he hs hl sc ex _ opts _).2 ⟨1, 0, ?_⟩
    unfold refAnswer
    rw [if_neg (by exact hr), ← Ans.bind_assoc, hsite, Ans.pure_bind]
    unfold refLookup
    rw [if_neg (by exact hr), ht]
    unfold refCall refConfig
    simp only [hk, hnk, Ans.of_ok_bind, hoptsOf, hstrat, hst]
    rfl
  · refine (C82_answer_partial E he ht hf hs hl sc ex (by exact hr) (by exact hn) opts _).2 ⟨1, 0, ?_⟩
    unfold commandAnswer
    rw [← Ans.bind_assoc, hsite, Ans.pure_bind]
    unfold ByOptions
    simp only [hk, hnk, Ans.of_ok_bind, hoptsOf, hstrat, hst]
    rfl

/-! ### Examples -/

namespace StrategySaid118

open World

def data (m v : Value) : Entries := [(s "lookup_options", .map [(s "conf", .map [(s "merge", m)])]), (s "conf", v)]

/-- Two levels that say something about the merge of `conf`, and have a hash for it. -/
def levels (m m' : Value) : List Level := [⟨"node".toList, [.text "node.yaml".toList], some (data m (.map [(s "a", s "x")]))⟩,
  ⟨"common".toList, [.text "common.yaml".toList], some (data m' (.map [(s "b", s "y")]))⟩]

def world (m m' : Value) : Env :=
  { mk (configOf (levels m m')) [("/h/data/node.yaml".toList, .map (data m (.map [(s "a", s "x")]))),
      ("/h/data/common.yaml".toList, .map (data m' (.map [(s "b", s "y")])))] with
    top := .mux, muxFns := some [.config, .env] }

theorem stateless (m m' : Value) : StatelessEnv (world m m') := by
  refine ⟨.inr ⟨rfl, [.env], rfl, by simp⟩, fun fs f h hf => ?_, (fun _ _ h => nomatch h), (fun _ _ _ h => nomatch h)⟩
  cases h
  rcases List.mem_cons.1 hf with h | h
  · subst h; trivial
  · rw [List.mem_singleton.1 h]; trivial

theorem file_node (m m' : Value) (sc : Scope) (d : Option Entries) :
    Level.file (world m m') sc ⟨"node".toList, [.text "node.yaml".toList], d⟩ = "/h/data/node.yaml".toList := by
  show join (seenFrom (dir "/h/hiera.yaml".toList) "data".toList) ([PathPiece.text "node.yaml".toList].flatMap (fun | .text t => t | _ => [])) = _
  decide +kernel

theorem file_common (m m' : Value) (sc : Scope) (d : Option Entries) :
    Level.file (world m m') sc ⟨"common".toList, [.text "common.yaml".toList], d⟩ = "/h/data/common.yaml".toList := by
  show join (seenFrom (dir "/h/hiera.yaml".toList) "data".toList) ([PathPiece.text "common.yaml".toList].flatMap (fun | .text t => t | _ => [])) = _
  decide +kernel

theorem ordinary {m m' : Value} (h : WF m) (h' : WF m') (sc : Scope) : Ordinary (world m m') sc (levels m m') where
  config := rfl
  named := by
    intro l hl
    simp only [levels, List.mem_cons, List.not_mem_nil, or_false] at hl
    rcases hl with rfl | rfl
    · show "node".toList ≠ []; decide
    · show "common".toList ≠ []; decide
  distinct := by
    show ["node".toList, "common".toList].Nodup
    decide
  paths := by
    intro l hl
    simp only [levels, List.mem_cons, List.not_mem_nil, or_false] at hl
    rcases hl with rfl | rfl
    · refine ⟨by show [PathPiece.text "node.yaml".toList].flatMap PathPiece.written ≠ []; decide, fun p hp => ?_⟩
      cases List.mem_singleton.1 hp
      show '%' ∉ _; decide
    · refine ⟨by show [PathPiece.text "common.yaml".toList].flatMap PathPiece.written ≠ []; decide, fun p hp => ?_⟩
      cases List.mem_singleton.1 hp
      show '%' ∉ _; decide
  vars := by
    intro l hl x fs hx
    simp only [levels, List.mem_cons, List.not_mem_nil, or_false] at hl
    rcases hl with rfl | rfl
    · cases List.mem_singleton.1 hx
    · cases List.mem_singleton.1 hx
  dataDir := fun h => by have := (hasMarker_iff _).2 h; revert this; show hasMarker "data".toList = true → False; decide
  pluginDir := fun h => by have := (hasMarker_iff _).2 h; revert this; show hasMarker "plugin".toList = true → False; decide
  there := by
    intro l hl es he
    simp only [levels, List.mem_cons, List.not_mem_nil, or_false] at hl
    rcases hl with rfl | rfl
    · cases he
      rw [file_node]
      refine ⟨rfl, rfl, ?_⟩
      simp [WF_map, data, s, UniqueKeys, h]
    · cases he
      rw [file_common]
      refine ⟨rfl, rfl, ?_⟩
      simp [WF_map, data, s, UniqueKeys, h']
  absent := by
    intro l hl he
    simp only [levels, List.mem_cons, List.not_mem_nil, or_false] at hl
    rcases hl with rfl | rfl <;> cases he

theorem asked {m m' : Value} (h : WF m) (h' : WF m') (u : marked m = false) (u' : marked m' = false) (sc : Scope) :
    AskedAbout (world m m') sc (levels m m') "conf".toList where
  setup := ordinary h h' sc
  top := .inr ⟨rfl, rfl, by decide, by decide⟩
  part := ⟨by unfold Unquoted; decide, by decide, alpha_not_int (by decide)⟩
  ordinary := by decide
  values := by
    have : valuesOf (levels m m') "conf".toList = [.map [(s "a", s "x")], .map [(s "b", s "y")]] := rfl
    rw [this]
    intro v hv
    exact unmarked_of_marked ((by decide : ∀ v ∈ [Value.map [(s "a", s "x")], .map [(s "b", s "y")]], marked v = false) v hv)
  options := by
    have : valuesOf (levels m m') "lookup_options".toList = [.map [(s "conf", .map [(s "merge", m)])], .map [(s "conf", .map [(s "merge", m')])]] := rfl
    rw [this]
    have key : ∀ x, marked x = false → Unmarked (.map [(s "conf", .map [(s "merge", x)])]) ∧ OptionsSay "conf".toList (.map [(s "conf", .map [(s "merge", x)])]) := by
      intro x hx
      refine ⟨unmarked_of_marked ?_, _, rfl, fun o ho => ?_⟩
      · simp only [marked, markedE, hx]
        decide
      · have e : Entries.getS [(s "conf", .map [(s "merge", x)])] "conf".toList = some (.map [(s "merge", x)]) := rfl
        rw [e] at ho
        cases ho
        exact ⟨_, rfl⟩
    intro v hv
    simp only [List.mem_cons, List.not_mem_nil, or_false] at hv
    rcases hv with rfl | rfl
    exacts [key m u, key m' u']

/-- The node says `{sort_merged_arrays: true}`, and the common level `{strategy: hash}`. -/
def sorted : Value := .map [(s "sort_merged_arrays", .bool true)]
def hashed : Value := .map [(s "strategy", s "hash")]

theorem sorted_wf : WF sorted := by simp [sorted, s, WF_map, UniqueKeys, WF]

theorem hashed_wf : WF hashed := by simp [hashed, s, WF_map, UniqueKeys]

theorem mergeable : Mergeable "hash".toList (valuesOf (levels sorted hashed) "conf".toList) :=
  ⟨by decide, fun _ v hv => by
    have : valuesOf (levels sorted hashed) "conf".toList = [.map [(s "a", s "x")], .map [(s "b", s "y")]] := rfl
    rw [this] at hv
    simp only [List.mem_cons, List.not_mem_nil, or_false] at hv
    rcases hv with rfl | rfl <;> exact ⟨_, rfl⟩, fun h => absurd h (by decide)⟩

theorem said : StrategySaid (levels sorted hashed) "conf".toList [] "hash".toList := by
  have e : saidOf "merge".toList "conf".toList (levels sorted hashed) = [sorted, hashed] := rfl
  refine .saidWith rfl (by rw [e]; rfl) (fun v hv x hx => ?_) (by rw [e]; rfl)
  rw [e] at hv
  simp only [List.mem_cons, List.not_mem_nil, or_false] at hv
  rcases hv with rfl | rfl
  · have : strategyIn sorted = none := rfl
    rw [this] at hx
    cases hx
  · have : strategyIn hashed = some (s "hash") := rfl
    rw [this] at hx
    cases hx
    exact ⟨_, rfl⟩

example : ∃ k v, newKey "conf.b".toList = .ok k ∧ Textbook "hash".toList [.map [(s "a", s "x")], .map [(s "b", s "y")]] v ∧
    Gives (world sorted hashed) (newInvocation (.map []) none) k [] (.ok (v.bind (fieldOf ["b".toList]))) :=
  C118_textbook (stateless _ _) (.start (.map []) none) rfl (asked sorted_wf hashed_wf (by decide) (by decide) _)
    said rfl mergeable (fs := ["b".toList]) (fun f hf => by
      cases List.mem_singleton.1 hf
      exact ⟨by unfold Unquoted; decide, by decide, alpha_not_int (by decide)⟩) none

example : ∃ k v, newKey "conf".toList = .ok k ∧ Textbook "hash".toList [.map [(s "a", s "x")], .map [(s "b", s "y")]] v ∧
    ∀ r, Converted (world sorted hashed) none v r → (∀ y, r = .ok (some y) → Unmarked y) →
      Gives (world sorted hashed) (newInvocation (.map []) none) k [] (fieldOfMade [] r) :=
  C117_hash_partial (stateless _ _) (.start (.map []) none) rfl
    ⟨asked sorted_wf hashed_wf (by decide) (by decide) _, said, rfl⟩
    .nil .asIs mergeable (fs := []) (nofun) none

/-- Only options, and no strategy. -/
example : ∃ k, newKey "conf".toList = .ok k ∧
    Gives (world sorted sorted) (newInvocation (.map []) none) k [] (.panic (.unknownStrategy [])) :=
  C118_nameless (stateless _ _) (.start (.map []) none) rfl
    (asked sorted_wf sorted_wf (by decide) (by decide) _)
    (.said (m := [(s "sort_merged_arrays", .bool true)]) rfl rfl (fun v hv => by
      have hv : v ∈ [sorted, sorted] := hv
      simp only [List.mem_cons, List.not_mem_nil, or_false, or_self] at hv
      cases hv
      rfl)) (fs := []) (nofun) none

end StrategySaid118

end Hiera
