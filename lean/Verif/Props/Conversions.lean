import Verif.Spec.Conversions
import Verif.Props.Ordinary
import Verif.Props.Strategy
import Verif.Props.Termination

/-!
# C117: conversions in an ordinary set-up
-/

set_option autoImplicit false

namespace Hiera

open Value Spec

/-! ### What the levels say -/

theorem getS_said {f : Str} {xs ys : Entries} {z : Value} (hm : DeepMerged (.map xs) (.map ys) z) :
    ∃ zs, z = .map zs ∧ ((∀ x y, Entries.getS xs f = some x → Entries.getS ys f = some y → ¬SameContainer x y) →
      Entries.getS zs f = (Entries.getS xs f).or (Entries.getS ys f)) := by
  have ws : WF (.str f) := by simp [WF]
  cases hm with
  | other h => exact absurd trivial h
  | @maps _ _ zs g1 g2 g3 g4 =>
    refine ⟨zs, rfl, fun hc => ?_⟩
    cases hx : Entries.getS xs f with
    | none =>
      cases hy : Entries.getS ys f with
      | none => exact (g1 _ ws).2 ⟨hx, hy⟩
      | some y => exact g3 _ _ ws hx hy
    | some x =>
      cases hy : Entries.getS ys f with
      | none => exact g2 _ _ ws hx hy
      | some y =>
        cases hz : Entries.getS zs f with
        | none => exact absurd ((g1 _ ws).1 hz).1 (by rw [Entries.getS] at hx; rw [hx]; simp)
        | some z =>
          have hm := g4 _ x y z ws hx hy hz
          have hn := hc x y hx hy
          cases hm with
          | other => rfl
          | maps => exact absurd trivial hn
          | arrays => exact absurd trivial hn
          | emptyLeft => exact absurd trivial hn
          | emptyRight => rfl

theorem saidIn_map (f key : Str) (es : Entries) : saidIn f key (.map es) = (Entries.getS es key).bind (fun o => valueAt [.str f] o) := rfl

theorem valueAt_one (f : Str) (os : Entries) : valueAt [.str f] (.map os) = Entries.getS os f := by
  rw [valueAt]
  show (Entries.getS os f).bind _ = _
  cases Entries.getS os f <;> rfl

theorem deep_said {key : Str} {a b : Value} (ha : OptionsSay key a) (hb : OptionsSay key b) (wa : WF a) (wb : WF b) :
    OptionsSay key (deep a b).1 ∧ ∀ f, (∀ x y, saidIn f key a = some x → saidIn f key b = some y → ¬SameContainer x y) →
      saidIn f key (deep a b).1 = (saidIn f key a).or (saidIn f key b) := by
  obtain ⟨as, rfl, ha⟩ := ha
  obtain ⟨bs, rfl, hb⟩ := hb
  have ws : WF (.str key) := by simp [WF]
  have hd := C10_deep (.map as) (.map bs) wa wb
  show OptionsSay key (deepMerge (.map as) (.map bs)).1 ∧ ∀ f, _ → saidIn f key (deepMerge (.map as) (.map bs)).1 = _
  generalize (deepMerge (.map as) (.map bs)).1 = r at hd
  cases hd with
  | other h => exact absurd trivial h
  | @maps _ _ rs h1 h2 h3 h4 =>
    simp only [saidIn_map]
    cases hx : Entries.getS as key with
    | none =>
      cases hy : Entries.getS bs key with
      | none =>
        have hz : Entries.getS rs key = none := (h1 _ ws).2 ⟨hx, hy⟩
        exact ⟨⟨rs, rfl, fun o h => by rw [hz] at h; cases h⟩, fun f _ => by rw [hz]; rfl⟩
      | some y =>
        have hz : Entries.getS rs key = some y := h3 _ _ ws hx hy
        exact ⟨⟨rs, rfl, fun o h => by rw [hz] at h; cases h; exact hb y hy⟩, fun f _ => by rw [hz]; rfl⟩
    | some x =>
      cases hy : Entries.getS bs key with
      | none =>
        have hz : Entries.getS rs key = some x := h2 _ _ ws hx hy
        exact ⟨⟨rs, rfl, fun o h => by rw [hz] at h; cases h; exact ha x hx⟩, fun f _ => by rw [hz]; simp⟩
      | some y =>
        cases hz : Entries.getS rs key with
        | none => exact absurd ((h1 _ ws).1 hz).1 (by rw [Entries.getS] at hx; rw [hx]; simp)
        | some z =>
          have hm := h4 _ x y z ws hx hy hz
          obtain ⟨xs, rfl⟩ := ha x hx
          obtain ⟨ys, rfl⟩ := hb y hy
          refine ⟨⟨rs, rfl, fun o h => ?_⟩, fun f hc => ?_⟩
          · rw [hz] at h
            cases h
            obtain ⟨zs, rfl, _⟩ := getS_said (f := []) hm
            exact ⟨zs, rfl⟩
          · obtain ⟨zs, rfl, e⟩ := getS_said (f := f) hm
            simp only [Option.bind_some, valueAt_one] at hc ⊢
            exact e hc

theorem said_chain {key : Str} : ∀ (vs : List Value) (v : Value), (∀ w ∈ v :: vs, OptionsSay key w ∧ WF w) →
    OptionsSay key (vs.foldl (Strategy.deep []).merge v) ∧ WF (vs.foldl (Strategy.deep []).merge v) ∧
    ∀ f, SaidOnce ((v :: vs).filterMap (saidIn f key)) →
      saidIn f key (vs.foldl (Strategy.deep []).merge v) = ((v :: vs).filterMap (saidIn f key)).head?
  | [], v, h => ⟨(h v (by simp)).1, (h v (by simp)).2, fun f _ => by
      rw [List.filterMap_cons, List.filterMap_nil, List.foldl_nil]
      cases saidIn f key v <;> rfl⟩
  | w :: vs, v, h => by
    have hv := h v (by simp)
    have hw := h w (by simp)
    have hm : (Strategy.deep []).merge v w = (deep v w).1 := rfl
    obtain ⟨h1, h2⟩ := deep_said hv.1 hw.1 hv.2 hw.2
    have ih := said_chain vs (deep v w).1 (fun x hx => by
      rcases List.mem_cons.1 hx with rfl | hx
      · exact ⟨h1, deep_WF hv.2 hw.2⟩
      · exact h x (by simp [hx]))
    rw [List.foldl_cons, hm]
    refine ⟨ih.1, ih.2.1, fun f hp => ?_⟩
    have e : saidIn f key (deep v w).1 = (saidIn f key v).or (saidIn f key w) := h2 f (fun x y hx hy => by
      unfold SaidOnce at hp
      rw [List.filterMap_cons, hx, List.filterMap_cons, hy] at hp
      exact (List.pairwise_cons.1 hp).1 y (List.mem_cons_self ..))
    have hp' : SaidOnce (((deep v w).1 :: vs).filterMap (saidIn f key)) := by
      unfold SaidOnce at hp ⊢
      rw [List.filterMap_cons, List.filterMap_cons] at hp
      rw [List.filterMap_cons, e]
      cases hx : saidIn f key v with
      | none =>
        rw [hx] at hp
        exact hp
      | some x =>
        rw [hx] at hp
        cases hy : saidIn f key w with
        | none => rw [hy] at hp; exact hp
        | some y =>
          rw [hy] at hp
          obtain ⟨p1, p2⟩ := List.pairwise_cons.1 hp
          exact List.pairwise_cons.2 ⟨fun a ha => p1 a (List.mem_cons_of_mem _ ha), (List.pairwise_cons.1 p2).2⟩
    rw [ih.2.2 f hp']
    rw [List.filterMap_cons, List.filterMap_cons, List.filterMap_cons, e]
    cases saidIn f key v <;> cases saidIn f key w <;> rfl

/-- What the lookup options of the levels, merged, say about a key. -/
theorem said_of {ls : List Level} {key : Str} (hwf : ∀ v ∈ valuesOf ls "lookup_options".toList, WF v)
    (hopt : ∀ v ∈ valuesOf ls "lookup_options".toList, OptionsSay key v) (f : Str) (hp : SaidOnce (saidOf f key ls)) :
    ((asMap (outcome (.deep []) ls "lookup_options".toList)).bind (fun m => asMap (Entries.getS m key))).bind (fun m => Entries.getS m f) =
      (saidOf f key ls).head? := by
  have hs : outcome (.deep []) ls "lookup_options".toList = refCombine (.deep []) (valuesOf ls "lookup_options".toList) := by
    match ls with
    | [] => rfl
    | [l] =>
      rw [valuesOf_cons]
      show (l.has "lookup_options".toList).map (Strategy.single (.deep [])) = _
      cases l.has "lookup_options".toList <;> rfl
    | a :: b :: ls => rfl
  rw [hs]
  unfold saidOf at hp ⊢
  cases hv : valuesOf ls "lookup_options".toList with
  | nil => rfl
  | cons v vs =>
    rw [hv] at hp
    have h := said_chain vs v (fun w hw => ⟨hopt w (hv ▸ hw), hwf w (hv ▸ hw)⟩)
    show ((asMap (some (vs.foldl (Strategy.deep []).merge v))).bind (fun m => asMap (Entries.getS m key))).bind (fun m => Entries.getS m f) = _
    rw [← h.2.2 f hp]
    obtain ⟨⟨es, he, h1⟩, h2, _⟩ := h
    rw [he, saidIn_map]
    show (asMap (Entries.getS es key)).bind _ = _
    cases ho : Entries.getS es key with
    | none => rfl
    | some o =>
      obtain ⟨os, rfl⟩ := h1 o ho
      rw [Option.bind_some, valueAt_one]
      rfl

/-! ### The question -/

/-- The lookup of a key in an ordinary set-up: the strategy is `st`, and `ty` is what the highest level that says so says about a
conversion. -/
structure Spec.AskedTo (E : Env) (sc : Scope) (ls : List Level) (root : Str) (opts : Entries) (st : Str) (ty : Option Value) : Prop where
  setup : Ordinary E sc ls
  top : UsualTop E root
  part : KeyPart root
  ordinary : root ≠ "lookup_options".toList
  values : ∀ v ∈ valuesOf ls root, Unmarked v
  options : ∀ v ∈ valuesOf ls "lookup_options".toList, Unmarked v ∧ OptionsSay root v
  merges : SaidOnce (saidOf "merge".toList root ls)
  merge : MergedBy ls root opts st
  conversion : (saidOf "convert_to".toList root ls).head? = ty

theorem asked_strategy {E : Env} {sc : Scope} {ls : List Level} {root : Str} {opts : Entries} {st : Str} {ty : Option Value}
    (hq : AskedTo E sc ls root opts st ty) (honce : SaidOnce (saidOf "convert_to".toList root ls)) (es : List Entry) :
    let x : Site := ⟨es, asMap (outcome (.deep []) ls "lookup_options".toList)⟩
    strategyNamed (refMergeOption opts (x.optionsOf ⟨root, [.name root]⟩)) = (st, none) ∧
      (x.optionsOf ⟨root, [.name root]⟩).bind (fun m => Entries.getS m "convert_to".toList) = ty := by
  intro x
  have hwf : ∀ v ∈ valuesOf ls "lookup_options".toList, WF v := fun v hv => valuesOf_WF hq.setup hv
  have h1 := said_of hwf (fun v hv => (hq.options v hv).2) "convert_to".toList honce
  have h2 := said_of hwf (fun v hv => (hq.options v hv).2) "merge".toList hq.merges
  have e : x.optionsOf ⟨root, [.name root]⟩ = (asMap (outcome (.deep []) ls "lookup_options".toList)).bind (fun m => asMap (Entries.getS m root)) := by
    show (match asMap (outcome (.deep []) ls "lookup_options".toList) with | some lo => asMap (Entries.getS lo root) | none => none) = _
    cases asMap (outcome (.deep []) ls "lookup_options".toList) <;> rfl
  rw [← e] at h1 h2
  have e3 : (saidOf "merge".toList root ls).head? = (valuesOf ls "lookup_options".toList).findSome? (mergeIn root) := by
    unfold saidOf
    rw [List.head?_filterMap]
    rfl
  rw [e3] at h2
  have e2 : Entries.getS opts "merge".toList = none →
      refMergeOption opts (x.optionsOf ⟨root, [.name root]⟩) = (valuesOf ls "lookup_options".toList).findSome? (mergeIn root) := fun h => by
    rw [← h2]
    unfold refMergeOption
    rw [h]
    cases x.optionsOf ⟨root, [.name root]⟩ <;> rfl
  refine ⟨?_, h1.trans hq.conversion⟩
  cases hq.merge with
  | asked h =>
    unfold refMergeOption
    rw [h]
    rfl
  | said h h' => rw [e2 h, h']; rfl
  | default h h' => rw [e2 h, h']; rfl

theorem extract_said {E : Env} {lo : Option Entries} {ty : Option Value} (h : lo.bind (fun m => Entries.getS m "convert_to".toList) = ty)
    {c : Option (Nat × Option (List Value))} (ht : TypeSaid E ty c) : extractConversion E lo = .ok c := by
  unfold extractConversion
  cases lo with
  | none =>
    cases h
    cases ht
    rfl
  | some m =>
    rw [Option.bind_some] at h
    simp only [h]
    cases ht with
    | asIs => rfl
    | empty => rfl
    | type hp => simp only [hp]; rfl
    | typeIn hp => simp only [hp]; rfl
    | args hp => simp only [hp]; rfl

theorem extract_missing {E : Env} {lo : Option Entries} {ty : Option Value} (h : lo.bind (fun m => Entries.getS m "convert_to".toList) = ty)
    {n : Str} {as : List Value} (hty : ty = some (.str n) ∨ ty = some (.arr (.str n :: as))) {e : Err} (ht : E.parseType n = .panic e) :
    extractConversion E lo = .panic e := by
  unfold extractConversion
  cases lo with
  | none => rcases hty with rfl | rfl <;> cases h
  | some m =>
    rw [Option.bind_some] at h
    simp only [h]
    rcases hty with rfl | rfl
    · simp only [ht]; rfl
    · cases as with
      | nil => simp only [ht]; rfl
      | cons a as => simp only [ht]; rfl

/-! ### Lookups -/

theorem site_answer {E : Env} (he : StatelessEnv E) {s : St} (hs : Session E s) (hl : s.v.locked = []) {sc : Scope} {es : List Entry}
    {o : Option Entries} {root st : Str} {mo : Option Entries} {opts : Entries} {ty out : Option Value} (htop : UsualTop E root)
    (hpart : KeyPart root) (hr : root ≠ "lookup_options".toList)
    (hsite : (Ans.of (newCfg E.cfg E.configPath (E.readYaml E.configPath)) >>= refSite E (ref E none 1) ⟨sc, .call⟩) = pure ⟨es, o⟩)
    (hsaid : let x : Site := ⟨es, o⟩
      strategyNamed (refMergeOption opts (x.optionsOf ⟨root, [.name root]⟩)) = (st, mo) ∧
        (x.optionsOf ⟨root, [.name root]⟩).bind (fun m => Entries.getS m "convert_to".toList) = ty)
    (src : Str) (fs : List Str) (ex : Option ExplOpts) {stv : Strategy} (hst : getStrategy st mo = .ok stv)
    (hh : ∀ r C, refHierarchy E r C ⟨root, [.name root]⟩ stv es = pure out) :
    ∃ v lo, (v = out ∨ v = out.map stv.convertValue) ∧
      lo.bind (fun m => Entries.getS m "convert_to".toList) = ty ∧
      (∀ e, extractConversion E lo = .panic e → Gives E (nextInvocation s sc ex) ⟨src, .name root :: fs.map .name⟩ opts (.panic e)) ∧
      ∀ c r, extractConversion E lo = .ok c → convert E v c = r → (∀ y, r = .ok (some y) → Unmarked y) →
        Gives E (nextInvocation s sc ex) ⟨src, .name root :: fs.map .name⟩ opts (fieldOfMade fs r) := by
  have hk : (⟨src, .name root :: fs.map .name⟩ : Key).root = root := rfl
  have hnk : newKey root = .ok ⟨root, [.name root]⟩ := by simpa [joinDots] using segments_key (xs := [root]) (by simp) (by simpa using hpart)
  have hdig : ∀ v, (⟨src, .name root :: fs.map .name⟩ : Key).digPure v = fieldOf fs v := fun v => digParts_fields fs v
  rcases htop with ht | ⟨ht, hf, hn⟩
  · refine ⟨_, _, .inl rfl, hsaid.2, fun e hx => (C81_answer E he hs hl sc ex _ opts _).2 ⟨1, 0, ?_⟩,
      fun c r hx hr' hu => (C81_answer E he hs hl sc ex _ opts _).2 ⟨1, 0, ?_⟩⟩
    all_goals
      unfold refAnswer
      rw [if_neg (by exact hr), ← Ans.bind_assoc, hsite, Ans.pure_bind]
      unfold refLookup
      rw [if_neg (by exact hr), ht, hk]
      unfold refCall refConfig
      simp only [hnk, Ans.of_ok_bind, hsaid.1, hx, hst]
    · rfl
    · rw [hh, Ans.pure_bind, hr']
      match r, hu with
      | .panic e, _ => rfl
      | .ok none, _ => rfl
      | .ok (some y), hu =>
        show (do let r ← refInterp E (ref E (some _) 0) _ true y; pure (r.bind _) : Ans (Option Value)) = _
        rw [refInterp_unmarked true (unmarked_iff (hu y rfl)), Ans.pure_bind]
        show some (Res.ok _) = some (Res.ok _)
        rw [Option.bind_some, Option.bind_some, hdig]
  · refine ⟨_, _, .inr rfl, hsaid.2, fun e hx => (C82_answer_partial E he ht hf hs hl sc ex (by exact hr) (by exact hn) opts _).2 ⟨1, 0, ?_⟩,
      fun c r hx hr' hu => (C82_answer_partial E he ht hf hs hl sc ex (by exact hr) (by exact hn) opts _).2 ⟨1, 0, ?_⟩⟩
    all_goals
      unfold commandAnswer
      rw [← Ans.bind_assoc, hsite, Ans.pure_bind, hk]
      unfold ByOptions
      simp only [hnk, Ans.of_ok_bind, hsaid.1, hx, hst]
    · rfl
    · rw [hh, Ans.pure_bind, hr']
      match r, hu with
      | .panic e, _ => rfl
      | .ok none, _ => rfl
      | .ok (some y), hu =>
        show (do let r ← refInterp E (ref E (some _) 1) _ true y; pure (r.bind _) : Ans (Option Value)) = _
        rw [refInterp_unmarked true (unmarked_iff (hu y rfl)), Ans.pure_bind]
        show some (Res.ok _) = some (Res.ok _)
        rw [Option.bind_some, Option.bind_some, hdig]

theorem said_answer {E : Env} (he : StatelessEnv E) {s : St} (hs : Session E s) (hl : s.v.locked = []) {sc : Scope} {ls : List Level}
    {root st : Str} {mo : Option Entries} {opts : Entries} {ty : Option Value} (hsetup : Ordinary E sc ls) (htop : UsualTop E root)
    (hpart : KeyPart root) (hr : root ≠ "lookup_options".toList) (hvals : ∀ v ∈ valuesOf ls root, Unmarked v)
    (hoptions : ∀ v ∈ valuesOf ls "lookup_options".toList, Unmarked v)
    (hsaid : let x : Site := ⟨ls.map (resolvedOf E sc), asMap (outcome (.deep []) ls "lookup_options".toList)⟩
      strategyNamed (refMergeOption opts (x.optionsOf ⟨root, [.name root]⟩)) = (st, mo) ∧
        (x.optionsOf ⟨root, [.name root]⟩).bind (fun m => Entries.getS m "convert_to".toList) = ty)
    (src : Str) (fs : List Str) (ex : Option ExplOpts) {stv : Strategy} (hst : getStrategy st mo = .ok stv) :
    ∃ v lo, (v = outcome stv ls root ∨ v = (outcome stv ls root).map stv.convertValue) ∧
      lo.bind (fun m => Entries.getS m "convert_to".toList) = ty ∧
      (∀ e, extractConversion E lo = .panic e → Gives E (nextInvocation s sc ex) ⟨src, .name root :: fs.map .name⟩ opts (.panic e)) ∧
      ∀ c r, extractConversion E lo = .ok c → convert E v c = r → (∀ y, r = .ok (some y) → Unmarked y) →
        Gives E (nextInvocation s sc ex) ⟨src, .name root :: fs.map .name⟩ opts (fieldOfMade fs r) :=
  site_answer he hs hl htop hpart hr (refSite_ordinary hsetup 0 hoptions) hsaid src fs ex hst
    (fun r C => refHierarchy_levels hsetup r C ⟨root, [.name root]⟩ stv hvals)

theorem asked_answer {E : Env} (he : StatelessEnv E) {s : St} (hs : Session E s) (hl : s.v.locked = []) {sc : Scope} {ls : List Level}
    {root st : Str} {opts : Entries} {ty : Option Value} (hq : AskedTo E sc ls root opts st ty)
    (honce : SaidOnce (saidOf "convert_to".toList root ls)) (src : Str) (fs : List Str) (ex : Option ExplOpts) {stv : Strategy}
    (hst : getStrategy st none = .ok stv) :
    ∃ v lo, (v = outcome stv ls root ∨ v = (outcome stv ls root).map stv.convertValue) ∧
      lo.bind (fun m => Entries.getS m "convert_to".toList) = ty ∧
      (∀ e, extractConversion E lo = .panic e → Gives E (nextInvocation s sc ex) ⟨src, .name root :: fs.map .name⟩ opts (.panic e)) ∧
      ∀ c r, extractConversion E lo = .ok c → convert E v c = r → (∀ y, r = .ok (some y) → Unmarked y) →
        Gives E (nextInvocation s sc ex) ⟨src, .name root :: fs.map .name⟩ opts (fieldOfMade fs r) :=
  said_answer he hs hl hq.setup hq.top hq.part hq.ordinary hq.values (fun v hv => (hq.options v hv).1)
    (asked_strategy hq honce (ls.map (resolvedOf E sc))) src fs ex hst

/-- C117, partially: in an ordinary set-up, the merge of the values of a key is converted to the type that the highest level that
says so says, and a dotted key gives what the result of this has in that place. Missing: levels that say it with more than one
array. -/
theorem C117_converted_partial {E : Env} (he : StatelessEnv E) {s : St} (hs : Session E s) (hl : s.v.locked = []) {sc : Scope} {ls : List Level}
    {root st : Str} {opts : Entries} {ty : Option Value} (hq : AskedTo E sc ls root opts st ty) (honce : SaidOnce (saidOf "convert_to".toList root ls))
    {c : Option (Nat × Option (List Value))} (ht : TypeSaid E ty c) (hm : Mergeable st (valuesOf ls root)) {fs : List Str}
    (hf : ∀ f ∈ fs, KeyPart f) (ex : Option ExplOpts) :
    ∃ k v, newKey (joinDots (root :: fs)) = .ok k ∧ Textbook st (valuesOf ls root) v ∧
      ∀ r, Converted E c v r → (∀ y, r = .ok (some y) → Unmarked y) → Gives E (nextInvocation s sc ex) k opts (fieldOfMade fs r) := by
  obtain ⟨stv, hst⟩ := mergeable_strategy hm
  obtain ⟨v, lo, h1, h2, _, h3⟩ := asked_answer he hs hl hq honce (joinDots (root :: fs)) fs ex hst
  refine ⟨_, v, segments_key (by simp) (fun y hy => ?_), ?_, fun r hr hu => h3 c r (extract_said h2 ht) (convert_of hr) hu⟩
  · rcases List.mem_cons.1 hy with rfl | hy
    · exact hq.part
    · exact hf y hy
  · have := outcome_textbook (fun v hv => valuesOf_WF hq.setup hv) hst hm
    rcases h1 with rfl | rfl
    · exact this.1
    · exact this.2

/-- C117: if there is no such type, then the lookup fails, also if no level has a value for the key. -/
theorem C117_no_type {E : Env} (he : StatelessEnv E) {s : St} (hs : Session E s) (hl : s.v.locked = []) {sc : Scope} {ls : List Level}
    {root st : Str} {opts : Entries} {n : Str} {as : List Value} {ty : Option Value} (hq : AskedTo E sc ls root opts st ty)
    (hty : ty = some (.str n) ∨ ty = some (.arr (.str n :: as)))
    (honce : SaidOnce (saidOf "convert_to".toList root ls)) {e : Err} (ht : E.parseType n = .panic e)
    (hm : Mergeable st (valuesOf ls root)) {fs : List Str} (hf : ∀ f ∈ fs, KeyPart f) (ex : Option ExplOpts) :
    ∃ k, newKey (joinDots (root :: fs)) = .ok k ∧ Gives E (nextInvocation s sc ex) k opts (.panic e) := by
  obtain ⟨stv, hst⟩ := mergeable_strategy hm
  obtain ⟨v, lo, _, h2, h3, _⟩ := asked_answer he hs hl hq honce (joinDots (root :: fs)) fs ex hst
  refine ⟨_, segments_key (by simp) (fun y hy => ?_), h3 e (extract_missing h2 hty ht)⟩
  rcases List.mem_cons.1 hy with rfl | hy
  · exact hq.part
  · exact hf y hy

/-! ### Examples -/

namespace Conversions117

open World

def data (c : Value) (v : String) : Entries := [(s "lookup_options", .map [(s "port", .map [(s "convert_to", c)])]), (s "port", s v)]

/-- Two levels that say something about the conversion of `port`. -/
def levels (c c' : Value) : List Level := [⟨"node".toList, [.text "node.yaml".toList], some (data c "1f")⟩,
  ⟨"common".toList, [.text "common.yaml".toList], some (data c' "50")⟩]

/-- The conversion to `Integer` is a list of the value and the arguments. -/
def world (c c' : Value) : Env :=
  { mk (configOf (levels c c')) [("/h/data/node.yaml".toList, .map (data c "1f")), ("/h/data/common.yaml".toList, .map (data c' "50"))] with
    top := .mux, muxFns := some [.config, .env],
    parseType := fun n => if n = "Integer".toList then .ok 1 else .panic (.other 9),
    newValue := fun _ v as => .ok (.arr (v :: as.getD [])) }

theorem stateless (c c' : Value) : StatelessEnv (world c c') := by
  refine ⟨.inr ⟨rfl, [.env], rfl, by simp⟩, fun fs f h hf => ?_, (fun _ _ h => nomatch h), (fun _ _ _ h => nomatch h)⟩
  cases h
  rcases List.mem_cons.1 hf with h | h
  · subst h; trivial
  · rw [List.mem_singleton.1 h]; trivial

theorem file_node (c c' : Value) (sc : Scope) (d : Option Entries) :
    Level.file (world c c') sc ⟨"node".toList, [.text "node.yaml".toList], d⟩ = "/h/data/node.yaml".toList := by
  show join (seenFrom (dir "/h/hiera.yaml".toList) "data".toList) ([PathPiece.text "node.yaml".toList].flatMap (fun | .text t => t | _ => [])) = _
  decide +kernel

theorem file_common (c c' : Value) (sc : Scope) (d : Option Entries) :
    Level.file (world c c') sc ⟨"common".toList, [.text "common.yaml".toList], d⟩ = "/h/data/common.yaml".toList := by
  show join (seenFrom (dir "/h/hiera.yaml".toList) "data".toList) ([PathPiece.text "common.yaml".toList].flatMap (fun | .text t => t | _ => [])) = _
  decide +kernel

theorem ordinary {c c' : Value} (h : WF c) (h' : WF c') (sc : Scope) : Ordinary (world c c') sc (levels c c') where
  config := rfl
  named := by
    intro l hl
    simp only [levels, List.mem_cons, List.not_mem_nil, or_false] at hl
    rcases hl with rfl | rfl
    · show "node".toList ≠ []; decide
    · show "common".toList ≠ []; decide
  distinct := by
    show ["node".toList, "common".toList].Nodup
    decide
  paths := by
    intro l hl
    simp only [levels, List.mem_cons, List.not_mem_nil, or_false] at hl
    rcases hl with rfl | rfl
    · refine ⟨by show [PathPiece.text "node.yaml".toList].flatMap PathPiece.written ≠ []; decide, fun p hp => ?_⟩
      cases List.mem_singleton.1 hp
      show '%' ∉ _; decide
    · refine ⟨by show [PathPiece.text "common.yaml".toList].flatMap PathPiece.written ≠ []; decide, fun p hp => ?_⟩
      cases List.mem_singleton.1 hp
      show '%' ∉ _; decide
  vars := by
    intro l hl x fs hx
    simp only [levels, List.mem_cons, List.not_mem_nil, or_false] at hl
    rcases hl with rfl | rfl
    · cases List.mem_singleton.1 hx
    · cases List.mem_singleton.1 hx
  dataDir := fun h => by have := (hasMarker_iff _).2 h; revert this; show hasMarker "data".toList = true → False; decide
  pluginDir := fun h => by have := (hasMarker_iff _).2 h; revert this; show hasMarker "plugin".toList = true → False; decide
  there := by
    intro l hl es he
    simp only [levels, List.mem_cons, List.not_mem_nil, or_false] at hl
    rcases hl with rfl | rfl
    · cases he
      rw [file_node]
      refine ⟨rfl, rfl, ?_⟩
      simp [WF_map, data, s, UniqueKeys, h]
    · cases he
      rw [file_common]
      refine ⟨rfl, rfl, ?_⟩
      simp [WF_map, data, s, UniqueKeys, h']
  absent := by
    intro l hl he
    simp only [levels, List.mem_cons, List.not_mem_nil, or_false] at hl
    rcases hl with rfl | rfl <;> cases he

theorem asked {c c' : Value} (h : WF c) (h' : WF c') (m : marked c = false) (m' : marked c' = false) (sc : Scope) :
    AskedTo (world c c') sc (levels c c') "port".toList [] "first".toList (some c) where
  setup := ordinary h h' sc
  top := .inr ⟨rfl, rfl, by decide, by decide⟩
  part := ⟨by unfold Unquoted; decide, by decide, alpha_not_int (by decide)⟩
  ordinary := by decide
  values := by
    have : valuesOf (levels c c') "port".toList = [s "1f", s "50"] := rfl
    rw [this]
    intro v hv
    exact unmarked_of_marked ((by decide : ∀ v ∈ [s "1f", s "50"], marked v = false) v hv)
  options := by
    have : valuesOf (levels c c') "lookup_options".toList = [.map [(s "port", .map [(s "convert_to", c)])], .map [(s "port", .map [(s "convert_to", c')])]] := rfl
    rw [this]
    have key : ∀ x, marked x = false → Unmarked (.map [(s "port", .map [(s "convert_to", x)])]) ∧ OptionsSay "port".toList (.map [(s "port", .map [(s "convert_to", x)])]) := by
      intro x hx
      refine ⟨unmarked_of_marked ?_, _, rfl, fun o ho => ?_⟩
      · simp only [marked, markedE, hx]
        decide
      · have e : Entries.getS [(s "port", .map [(s "convert_to", x)])] "port".toList = some (.map [(s "convert_to", x)]) := rfl
        rw [e] at ho
        cases ho
        exact ⟨_, rfl⟩
    intro v hv
    simp only [List.mem_cons, List.not_mem_nil, or_false] at hv
    rcases hv with rfl | rfl
    exacts [key c m, key c' m']
  merges := .nil
  merge := .default rfl rfl
  conversion := rfl

theorem mergeable (c c' : Value) : Mergeable "first".toList (valuesOf (levels c c') "port".toList) :=
  ⟨by decide, fun h => absurd h (by decide), fun h => absurd h (by decide)⟩

/-- The node says `[Integer, 16]`, and the common level `Integer`. -/
example : ∃ k v, newKey "port".toList = .ok k ∧ Textbook "first".toList [s "1f", s "50"] v ∧
    ∀ r, Converted (world (.arr [s "Integer", .int 16]) (s "Integer")) (some (1, some [.int 16])) v r → (∀ y, r = .ok (some y) → Unmarked y) →
      Gives (world (.arr [s "Integer", .int 16]) (s "Integer")) (newInvocation (.map []) none) k [] (fieldOfMade [] r) :=
  C117_converted_partial (stateless _ _) (.start (.map []) none) rfl (asked (by simp [WF, WFList]) (by simp [s]) (by decide) (by decide) _)
    (.cons (fun b hb => by cases List.mem_singleton.1 hb; exact id) (.cons (nofun) .nil)) (.args rfl) (mergeable ..) (fs := []) (nofun) none

/-- The node says `Integar`. -/
example : ∃ k, newKey "port".toList = .ok k ∧
    Gives (world (s "Integar") (s "Integer")) (newInvocation (.map []) none) k [] (.panic (.other 9)) :=
  C117_no_type (stateless _ _) (.start (.map []) none) rfl (asked (by simp [WF]) (by simp [s]) (by decide) (by decide) _) (n := "Integar".toList) (as := [])
    (.inl rfl) (.cons (fun b hb => by cases List.mem_singleton.1 hb; exact id) (.cons (nofun) .nil)) rfl (mergeable ..) (fs := []) (nofun) none

end Conversions117

open Conversions117 World in
/-- C117 is not so if two levels say it with an array: the arrays are merged, so that the arguments of the lower level come after
those of the higher one. Here the node says `[Integer, 16]`, the common level says `[Integer, 10]`, and the value is made with the
arguments `16, 10`. -/
theorem C117_false : ¬∀ (E : Env) (_ : StatelessEnv E) (s : St) (_ : Session E s) (_ : s.v.locked = []) (sc : Scope) (ls : List Level)
    (root st : Str) (opts : Entries) (ty : Option Value) (_ : AskedTo E sc ls root opts st ty)
    (c : Option (Nat × Option (List Value))) (_ : TypeSaid E ty c) (_ : Mergeable st (valuesOf ls root)),
    ∃ k v, newKey root = .ok k ∧ Textbook st (valuesOf ls root) v ∧
      ∀ r, Converted E c v r → (∀ y, r = .ok (some y) → Unmarked y) → Gives E (nextInvocation s sc none) k opts r := by
  intro h
  have w : ∀ i : Int, WF (.arr [World.s "Integer", .int i]) := fun i => by simp [WF, WFList, World.s]
  obtain ⟨k, v, hk, ht, hg⟩ := h (world (.arr [World.s "Integer", .int 16]) (.arr [World.s "Integer", .int 10])) (stateless _ _) _
    (.start (.map []) none) rfl (.map []) _ _ _ _ _ (asked (w 16) (w 10) (by decide) (by decide) _) _ (.args rfl) (mergeable ..)
  have hk' : newKey "port".toList = .ok ⟨"port".toList, [.name "port".toList]⟩ := by decide +kernel
  rw [hk'] at hk
  cases hk
  have hv : v = some (World.s "1f") := by
    rw [show valuesOf _ _ = [World.s "1f", World.s "50"] from rfl] at ht
    cases ht
    rfl
  subst hv
  have hg := hg (.ok (some (.arr [World.s "1f", .int 16]))) (.made rfl) (fun y hy => by
    cases hy
    exact unmarked_of_marked (by decide))
  have hg' : Gives (world (.arr [World.s "Integer", .int 16]) (.arr [World.s "Integer", .int 10])) (nextInvocation (newInvocation (.map []) none) (.map []) none)
      ⟨"port".toList, [.name "port".toList]⟩ [] (.ok (some (.arr [World.s "1f", .int 16, .int 10]))) :=
    (C81_answer _ (stateless _ _) (.start (.map []) none) rfl (.map []) none _ [] _).2 (answer_of (n := 1) (m := 4) (by decide +kernel))
  obtain ⟨n, t, hn⟩ := hg
  obtain ⟨m, u, hm⟩ := hg'
  have : (Res.ok (some (.arr [World.s "1f", .int 16])) : Res (Option Value)) = .ok (some (.arr [World.s "1f", .int 16, .int 10])) :=
    congrArg Prod.fst (C59_deterministic _ n m _ _ _ _ _ hn hm)
  revert this
  decide

end Hiera
