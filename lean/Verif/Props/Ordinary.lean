/- Lookups in an ordinary set-up (`Spec/Ordinary.lean`): from the configuration file and the data files to the answer. -/
import Verif.Lemmas.Ordinary
import Verif.Lemmas.MergeEqual
import Verif.Props.Reference

set_option autoImplicit false

namespace Hiera

open Value Spec World

/-! ### Merges -/

theorem deepChain_fold : ∀ (vs : List Value) (v : Value), (∀ w ∈ v :: vs, WF w) → DeepChain (v :: vs) (vs.foldl (Strategy.deep []).merge v)
  | [], _, _ => .one
  | w :: vs, v, h => by
    have hv := h v (by simp)
    have hw := h w (by simp)
    refine .more (C10_deep v w hv hw) (deep_WF hv hw) (deepChain_fold vs (deepMerge v w).1 (fun x hx => ?_))
    rcases List.mem_cons.1 hx with rfl | hx
    · exact deep_WF hv hw
    · exact h x (by simp [hx])

theorem hash_fold : ∀ (vs : List Entries) (as : Entries), WF (.map as) → (∀ es ∈ vs, WF (.map es)) →
    ∃ rs, (vs.map Value.map).foldl Strategy.hash.merge (.map as) = .map rs ∧ WF (.map rs) ∧
      ∀ k, WF k → Entries.get rs k = (as :: vs).findSome? (fun es => Entries.get es k)
  | [], as, ha, _ => ⟨as, rfl, ha, fun k _ => by simp [List.findSome?]; cases Entries.get as k <;> rfl⟩
  | bs :: vs, as, ha, h => by
    have hb := h bs (by simp)
    obtain ⟨rs, h1, h3, h2⟩ := hash_fold vs (Entries.merge bs as) (Entries.WF_merge hb ha) (fun es he => h es (by simp [he]))
    refine ⟨rs, h1, h3, fun k hk => ?_⟩
    rw [h2 k hk]
    simp only [List.findSome?]
    rw [Entries.get_merge hb ha hk]
    cases Entries.get as k <;> rfl

theorem all_maps : ∀ {vs : List Value}, (∀ v ∈ vs, ∃ es, v = .map es) → ∃ ws : List Entries, vs = ws.map .map
  | [], _ => ⟨[], rfl⟩
  | v :: vs, h => by
    obtain ⟨es, rfl⟩ := h v (by simp)
    obtain ⟨ws, rfl⟩ := all_maps (fun w hw => h w (List.mem_cons_of_mem _ hw))
    exact ⟨es :: ws, rfl⟩

theorem outcome_textbook {ls : List Level} {key st : Str} {stv : Strategy} (hw : ∀ v ∈ valuesOf ls key, WF v)
    (hst : getStrategy st none = .ok stv) (hm : Mergeable st (valuesOf ls key)) :
    Textbook st (valuesOf ls key) (outcome stv ls key) ∧ Textbook st (valuesOf ls key) ((outcome stv ls key).map stv.convertValue) := by
  have single : ∀ l, ls = [l] → valuesOf ls key = (l.has key).toList := fun l h => by rw [h, valuesOf_cons]; simp [valuesOf]
  obtain ⟨h0, h1, h2⟩ := hm
  simp only [List.mem_cons, List.not_mem_nil, or_false] at h0
  rcases h0 with rfl | rfl | rfl | rfl
  · cases hst
    have : Textbook "first".toList (valuesOf ls key) (valuesOf ls key).head? := by
      cases valuesOf ls key with
      | nil => exact .nothing
      | cons v vs => exact .first
    refine ⟨this, ?_⟩
    have e : (outcome .first ls key).map Strategy.first.convertValue = (valuesOf ls key).head? := by
      show ((valuesOf ls key).head?).map Strategy.first.convertValue = _
      cases (valuesOf ls key).head? <;> rfl
    rw [e]; exact this
  · cases hst
    have flat : ∀ es : List Value, (∀ e ∈ es, ∀ xs, e ≠ .arr xs) → Strategy.unique.convertValue (.arr es) = .arr es := fun es h => by
      show Value.arr (flatten es) = _
      rw [flatten_flat es h]
    have key' : ∃ r, outcome .unique ls key = r ∧ Textbook "unique".toList (valuesOf ls key) r ∧ r.map Strategy.unique.convertValue = r := by
      refine ⟨_, rfl, ?_⟩
      have one : ∀ v, valuesOf ls key = [v] → ∃ es, v = .arr es ∧ Textbook "unique".toList [v] (some (.arr es)) ∧ flatten es = es ∧ unique es = es := by
        intro v hv
        obtain ⟨es, rfl, f1, f2⟩ := h2 rfl v hv
        exact ⟨es, rfl, .uniqueOne f1 f2, flatten_flat es f1, unique_id f2⟩
      match ls, single, one with
      | [], _, _ => exact ⟨.nothing, rfl⟩
      | [l], single, one =>
        rw [single l rfl] at one ⊢
        have e0 : outcome .unique [l] key = (l.has key).map Strategy.unique.single := rfl
        rw [e0]
        cases hl : l.has key with
        | none => exact ⟨.nothing, rfl⟩
        | some v =>
          rw [hl] at one
          obtain ⟨es, rfl, t, f1, f2⟩ := one v rfl
          have e : Strategy.unique.single (.arr es) = .arr es := by
            show Value.arr (unique (flatten es)) = _
            rw [f1, f2]
          have e' : Strategy.unique.convertValue (.arr es) = .arr es := by
            show Value.arr (flatten es) = _
            rw [f1]
          simp only [Option.map_some, e, e']
          exact ⟨t, trivial⟩
      | a :: b :: ls, _, one =>
        have e0 : outcome .unique (a :: b :: ls) key = refCombine .unique (valuesOf (a :: b :: ls) key) := rfl
        rw [e0]
        generalize hv : valuesOf (a :: b :: ls) key = ws at hw one
        match ws, hw, one with
        | [], _, _ => exact ⟨.nothing, rfl⟩
        | [v], _, one =>
          obtain ⟨es, rfl, t, f1, f2⟩ := one v rfl
          have e' : Strategy.unique.convertValue (.arr es) = .arr es := by
            show Value.arr (flatten es) = _
            rw [f1]
          simp only [refCombine, List.foldl_nil, Option.map_some, e']
          exact ⟨t, trivial⟩
        | v :: w :: vs, hw, _ =>
          have e : refCombine .unique (v :: w :: vs) = some (.arr (unique (flatten (v :: w :: vs)))) := by
            have : Strategy.unique.convertValue v = .arr (flattenV v) := by simp [Strategy.convertValue, convertUnique_eq]
            simp only [refCombine, this]
            rw [unique_fold _ _ (flattenV_no_arr v) (by simp), ← flatten]
          rw [e]
          have nub := isNub_unique (flatten (v :: w :: vs)) (flatten_WF _ hw)
          refine ⟨.unique (leavesL_flatten _) nub, ?_⟩
          rw [Option.map_some, flat _ (fun x hx => flatten_no_arr _ x (nub.1.subset hx))]
    obtain ⟨r, e, h, h'⟩ := key'
    rw [e, h']
    exact ⟨h, h⟩
  · cases hst
    have e : outcome .hash ls key = refCombine .hash (valuesOf ls key) := by
      match ls, single with
      | [], _ => rfl
      | [l], single =>
        rw [single l rfl]
        show (l.has key).map Strategy.hash.single = _
        cases l.has key <;> rfl
      | a :: b :: ls, _ => rfl
    obtain ⟨ws, hws⟩ := all_maps (h1 rfl)
    have id : ∀ r : Option Value, r.map Strategy.hash.convertValue = r := fun r => by cases r <;> rfl
    rw [e, id]
    suffices Textbook "hash".toList (valuesOf ls key) (refCombine .hash (valuesOf ls key)) from ⟨this, this⟩
    rw [hws]
    rw [hws] at hw
    match ws, hw with
    | [], _ => exact .nothing
    | as :: ws, hw =>
      obtain ⟨rs, h3, h5, h4⟩ := hash_fold ws as (hw _ (by simp)) (fun es he => hw _ (by simp [he]))
      have : refCombine .hash ((as :: ws).map .map) = some (.map rs) := by
        show some ((ws.map Value.map).foldl Strategy.hash.merge (.map as)) = _
        rw [h3]
      rw [this]
      exact .hash h5 h4
  · cases hst
    have e : outcome (.deep []) ls key = refCombine (.deep []) (valuesOf ls key) := by
      match ls, single with
      | [], _ => rfl
      | [l], single =>
        rw [single l rfl]
        show (l.has key).map (Strategy.single (.deep [])) = _
        cases l.has key <;> rfl
      | a :: b :: ls, _ => rfl
    have id : ∀ r : Option Value, r.map (Strategy.deep []).convertValue = r := fun r => by cases r <;> rfl
    show Textbook _ _ (outcome (.deep []) ls key) ∧ Textbook _ _ ((outcome (.deep []) ls key).map (Strategy.deep []).convertValue)
    rw [e, id]
    suffices Textbook "deep".toList (valuesOf ls key) (refCombine (.deep []) (valuesOf ls key)) from ⟨this, this⟩
    cases hv : valuesOf ls key with
    | nil => exact .nothing
    | cons v vs =>
      rw [hv] at hw
      exact .deep (deepChain_fold vs v hw)

theorem outcome_clean {p : Str → Prop} (st : Strategy) {ls : List Level} {key : Str} (hu : ∀ v ∈ valuesOf ls key, Clean p v) :
    CleanO p (outcome st ls key) := by
  have single : ∀ l, ls = [l] → CleanO p ((l.has key).map st.single) := fun l h => by
    rw [h, valuesOf_cons] at hu
    cases hl : l.has key with
    | none => exact cleanO_none
    | some v => exact cleanO_some.2 (clean_single st (hu v (by simp [hl])))
  have combine : CleanO p (refCombine st (valuesOf ls key)) := refCombine_clean st hu
  cases st with
  | first =>
    show CleanO _ (valuesOf ls key).head?
    cases hv : valuesOf ls key with
    | nil => exact cleanO_none
    | cons v vs => exact cleanO_some.2 (hu v (by simp [hv]))
  | unique | hash | deep =>
    match ls, single, combine with
    | [], _, c => exact c
    | [l], s, _ => exact s l rfl
    | _ :: _ :: _, _, c => exact c

/-! ### The strategy -/

theorem strategy_of {E : Env} {ls : List Level} (hwf : ∀ v ∈ valuesOf ls "lookup_options".toList, WF v) {k : Key} {opts : Entries} {st : Str}
    (es : List Entry) (hopt : ∀ v ∈ valuesOf ls "lookup_options".toList, OptionsAre k.root v) (hm : MergedBy ls k.root opts st) :
    let x : Site := ⟨es, asMap (outcome (.deep []) ls "lookup_options".toList)⟩
    strategyNamed (refMergeOption opts (x.optionsOf k)) = (st, none) ∧ extractConversion E (x.optionsOf k) = .ok none := by
  intro x
  obtain ⟨h1, h2⟩ := (options_of hwf hopt).2
  have e : x.optionsOf k = (asMap (outcome (.deep []) ls "lookup_options".toList)).bind (fun m => asMap (Entries.getS m k.root)) := by
    show (match asMap (outcome (.deep []) ls "lookup_options".toList) with | some lo => asMap (Entries.getS lo k.root) | none => none) = _
    cases asMap (outcome (.deep []) ls "lookup_options".toList) <;> rfl
  rw [← e] at h1 h2
  have e2 : Entries.getS opts "merge".toList = none →
      refMergeOption opts (x.optionsOf k) = (valuesOf ls "lookup_options".toList).findSome? (mergeIn k.root) := fun h => by
    rw [← h2]
    unfold refMergeOption
    rw [h]
    cases x.optionsOf k <;> rfl
  constructor
  · cases hm with
    | asked h =>
      unfold refMergeOption
      rw [h]
      rfl
    | said h h' => rw [e2 h, h']; rfl
    | default h h' => rw [e2 h, h']; rfl
  · unfold extractConversion
    cases hx : x.optionsOf k with
    | none => rfl
    | some m =>
      rw [hx] at h1
      simp only [Option.bind_some] at h1
      simp only [h1]

theorem strategy_said {E : Env} {sc : Scope} {ls : List Level} (ho : Ordinary E sc ls) {k : Key} {opts : Entries} {st : Str} (es : List Entry)
    (hopt : ∀ v ∈ valuesOf ls "lookup_options".toList, OptionsAre k.root v) (hm : MergedBy ls k.root opts st) :
    let x : Site := ⟨es, asMap (outcome (.deep []) ls "lookup_options".toList)⟩
    strategyNamed (refMergeOption opts (x.optionsOf k)) = (st, none) ∧ extractConversion E (x.optionsOf k) = .ok none :=
  strategy_of (fun _ hv => valuesOf_WF ho hv) es hopt hm

/-! ### Lookups -/

theorem Ans.bind_assoc {α β γ : Type} (m : Ans α) (f : α → Ans β) (g : β → Ans γ) : ((m >>= f) >>= g) = (m >>= fun a => f a >>= g) := by
  cases m with
  | none => rfl
  | some r => cases r <;> rfl

/-- The lookup function: the configuration alone, or with the environment, as the command line and the server have it. -/
def Spec.UsualTop (E : Env) (root : Str) : Prop :=
  E.top = .config ∨ (E.top = .mux ∧ E.muxFns = some [.config, .env] ∧ NotEnv root)

/-- What the lookup of a key in an ordinary set-up is asked under: the strategy is `st`. -/
structure Spec.Question (E : Env) (sc : Scope) (ls : List Level) (root : Str) (opts : Entries) (st : Str) : Prop where
  setup : Ordinary E sc ls
  top : UsualTop E root
  part : KeyPart root
  ordinary : root ≠ "lookup_options".toList
  values : ∀ v ∈ valuesOf ls root, Unmarked v
  options : ∀ v ∈ valuesOf ls "lookup_options".toList, Unmarked v ∧ OptionsAre root v
  merge : MergedBy ls root opts st

theorem ordinary_answer {E : Env} (he : StatelessEnv E) {s : St} (hs : Session E s) (hl : s.v.locked = []) {sc : Scope} {ls : List Level}
    {root st : Str} {opts : Entries} (hq : Question E sc ls root opts st) (src : Str) (fs : List Str) (ex : Option ExplOpts) {stv : Strategy}
    (hst : getStrategy st none = .ok stv) :
    ∃ r, ((E.top = .config ∧ r = outcome stv ls root) ∨ (E.top = .mux ∧ r = (outcome stv ls root).map stv.convertValue)) ∧
      Gives E (nextInvocation s sc ex) ⟨src, .name root :: fs.map .name⟩ opts (.ok (r.bind (fieldOf fs))) := by
  obtain ⟨ho, htop, hroot, hr, hu, hopt, hm⟩ := hq
  have hk : (⟨src, .name root :: fs.map .name⟩ : Key).root = root := rfl
  have hnk : newKey root = .ok ⟨root, [.name root]⟩ := by simpa [joinDots] using segments_key (xs := [root]) (by simp) (by simpa using hroot)
  have hsite := refSite_ordinary ho 0 (fun v hv => (hopt v hv).1)
  have hsaid := strategy_said (E := E) ho (k := ⟨root, [.name root]⟩) (ls.map (resolvedOf E sc)) (fun v hv => (hopt v hv).2) hm
  have hclean := outcome_clean (p := fun s => ¬Marked s) stv hu
  have hdig : ∀ v, (⟨src, .name root :: fs.map .name⟩ : Key).digPure v = fieldOf fs v := fun v => digParts_fields fs v
  rcases htop with ht | ⟨ht, hf, hn⟩
  · refine ⟨_, .inl ⟨ht, rfl⟩, (C81_answer E he hs hl sc ex _ opts _).2 ⟨1, 0, ?_⟩⟩
    unfold refAnswer
    rw [if_neg (by exact hr), ← Ans.bind_assoc, hsite, Ans.pure_bind]
    unfold refLookup
    rw [if_neg (by exact hr), ht, hk]
    unfold refCall refConfig
    simp only [hnk, Ans.of_ok_bind, hsaid.1, hsaid.2, hst]
    rw [refHierarchy_levels ho _ _ ⟨root, [.name root]⟩ stv hu, Ans.pure_bind, show outcome stv ls (Key.root ⟨root, [.name root]⟩) = outcome stv ls root from rfl]
    cases hv : outcome stv ls root with
    | none => rfl
    | some v =>
      show (do let r ← refInterp E (ref E (some _) 0) _ true v; pure (r.bind _) : Ans (Option Value)) = _
      rw [refInterp_unmarked true (unmarked_iff (hclean v hv)), Ans.pure_bind]
      show some (Res.ok _) = some (Res.ok _)
      rw [Option.bind_some, Option.bind_some, hdig]
  · refine ⟨_, .inr ⟨ht, rfl⟩, (C82_answer_partial E he ht hf hs hl sc ex (by exact hr) (by exact hn) opts _).2 ⟨1, 0, ?_⟩⟩
    unfold commandAnswer
    rw [← Ans.bind_assoc, hsite, Ans.pure_bind, hk]
    unfold ByOptions
    simp only [hnk, Ans.of_ok_bind, hsaid.1, hsaid.2, hst]
    rw [refHierarchy_levels ho _ _ ⟨root, [.name root]⟩ stv hu, Ans.pure_bind, show outcome stv ls (Key.root ⟨root, [.name root]⟩) = outcome stv ls root from rfl]
    cases hv : outcome stv ls root with
    | none => rfl
    | some v =>
      show (do let r ← refInterp E (ref E (some _) 1) _ true (stv.convertValue v); pure (r.bind _) : Ans (Option Value)) = _
      rw [refInterp_unmarked true (unmarked_iff (clean_convertValue stv (hclean v hv))), Ans.pure_bind]
      show some (Res.ok _) = some (Res.ok _)
      rw [Option.map_some, Option.bind_some, Option.bind_some, hdig]

theorem mergeable_strategy {st : Str} {vs : List Value} (h : Mergeable st vs) : ∃ stv, getStrategy st none = .ok stv := by
  have := h.1
  simp only [List.mem_cons, List.not_mem_nil, or_false] at this
  rcases this with rfl | rfl | rfl | rfl
  exacts [⟨_, rfl⟩, ⟨_, rfl⟩, ⟨_, rfl⟩, ⟨_, rfl⟩]

/-- C92: in an ordinary set-up, from the configuration file to the answer, a lookup of a key gives the merge of the values that the
levels have for it, and a lookup of a dotted key gives what the merge has in that place. -/
theorem C92_textbook {E : Env} (he : StatelessEnv E) {s : St} (hs : Session E s) (hl : s.v.locked = []) {sc : Scope} {ls : List Level}
    {root st : Str} {opts : Entries} (hq : Question E sc ls root opts st) (hm : Mergeable st (valuesOf ls root)) {fs : List Str}
    (hf : ∀ f ∈ fs, KeyPart f) (ex : Option ExplOpts) :
    ∃ k v, newKey (joinDots (root :: fs)) = .ok k ∧ Textbook st (valuesOf ls root) v ∧
      Gives E (nextInvocation s sc ex) k opts (.ok (v.bind (fieldOf fs))) := by
  obtain ⟨stv, hst⟩ := mergeable_strategy hm
  obtain ⟨r, h1, h2⟩ := ordinary_answer he hs hl hq (joinDots (root :: fs)) fs ex hst
  refine ⟨_, r, segments_key (by simp) (fun y hy => ?_), ?_, h2⟩
  · rcases List.mem_cons.1 hy with rfl | hy
    · exact hq.part
    · exact hf y hy
  · have := outcome_textbook (fun v hv => valuesOf_WF hq.setup hv) hst hm
    rcases h1 with ⟨_, rfl⟩ | ⟨_, rfl⟩
    · exact this.1
    · exact this.2

mutual
theorem leaves_eq : ∀ {v : Value} {ls : List Value}, Spec.Leaves v ls → ls = flattenV v
  | .arr es, _, .arr h => by rw [leavesL_eq h]; simp [flattenV]
  | .arr es, _, .leaf h => absurd rfl (h es)
  | .null, _, .leaf _ => by simp [flattenV]
  | .bool _, _, .leaf _ => by simp [flattenV]
  | .int _, _, .leaf _ => by simp [flattenV]
  | .str _, _, .leaf _ => by simp [flattenV]
  | .map _, _, .leaf _ => by simp [flattenV]
  | .sensitive _, _, .leaf _ => by simp [flattenV]
  | .opaque _, _, .leaf _ => by simp [flattenV]
theorem leavesL_eq : ∀ {vs ls : List Value}, LeavesL vs ls → ls = flatten vs
  | [], _, .nil => by simp [flatten]
  | v :: vs, _, .cons h hs => by rw [leaves_eq h, leavesL_eq hs, ← flatten]
end

theorem deepChain_WF {vs : List Value} {r : Value} (h : DeepChain vs r) : (∀ v ∈ vs, WF v) → WF r := by
  induction h with
  | one => intro hw; exact hw _ (by simp)
  | more _ hc _ ih =>
    intro hw
    refine ih (fun v hv => ?_)
    rcases List.mem_cons.1 hv with rfl | hv
    · exact hc
    · exact hw v (by simp [hv])

theorem textbook_WF {st : Str} {vs : List Value} {v : Option Value} (hw : ∀ v ∈ vs, WF v) (h : Textbook st vs v) : ∀ w, v = some w → WF w := by
  intro w e
  cases h with
  | nothing => cases e
  | first => cases e; exact hw _ (by simp)
  | unique hl hn =>
    cases e
    rw [leavesL_eq hl] at hn
    exact WF_arr.2 (fun x hx => flatten_WF _ hw x (hn.1.subset hx))
  | uniqueOne => cases e; exact hw _ (by simp)
  | hash h1 _ => cases e; exact h1
  | deep hd => cases e; exact deepChain_WF hd hw

theorem deepChain_congr {vs : List Value} {r : Value} (h : DeepChain vs r) : ∀ {a a' : Value} {ws : List Value} {r' : Value}, vs = a :: ws →
    (∀ v ∈ a :: ws, WF v) → WF a' → equals a a' = true → DeepChain (a' :: ws) r' → equals r r' = true := by
  induction h with
  | one =>
    intro a a' ws r' e _ _ he h'
    cases e
    cases h' with
    | one => exact he
  | @more x b c vs r hm hc hd ih =>
    intro a a' ws r' e hw ha' he h'
    cases e
    cases h' with
    | @more _ _ c' _ _ hm' hc' hd' =>
      have ha := hw x (by simp)
      have hb := hw b (by simp)
      refine ih rfl (fun v hv => ?_) hc' (deepMerged_congr hm ha ha' hb hc hc' he hm') hd'
      rcases List.mem_cons.1 hv with rfl | hv
      · exact hc
      · exact hw v (by simp [hv])

/-- C92: the textbook has one answer, up to the order of the entries of hashes. -/
theorem C92_one {st : Str} {vs : List Value} {v w : Option Value} (hw : ∀ v ∈ vs, WF v) (h : Textbook st vs v) (h' : Textbook st vs w) :
    (v = none ∧ w = none) ∨ ∃ x y, v = some x ∧ w = some y ∧ equals x y = true := by
  cases h with
  | nothing => cases h'; exact .inl ⟨rfl, rfl⟩
  | @first v vs =>
    generalize hst : "first".toList = st at h'
    generalize hvs : v :: vs = us at h'
    cases h' with
    | nothing => cases hvs
    | first => cases hvs; exact .inr ⟨_, _, rfl, rfl, equals_refl (hw v (by simp))⟩
    | unique => cases hst
    | uniqueOne => cases hst
    | hash => cases hst
    | deep => cases hst
  | @unique v w vs ls rs hl hn =>
    generalize hst : "unique".toList = st at h'
    generalize hvs : v :: w :: vs = us at h'
    cases h' with
    | unique hl' hn' =>
      cases hvs
      have hf := flatten_WF _ hw
      rw [leavesL_eq hl] at hn
      rw [leavesL_eq hl'] at hn'
      rw [isNub_eq hf hn, isNub_eq hf hn']
      exact .inr ⟨_, _, rfl, rfl, equals_refl (WF_arr.2 (fun x hx => hf x (unique_mem hx)))⟩
    | nothing => cases hvs
    | first => cases hst
    | deep => cases hst
    | uniqueOne => cases hvs
    | hash => cases hst
  | @uniqueOne es h1 h2 =>
    generalize hst : "unique".toList = st at h'
    generalize hvs : [Value.arr es] = us at h'
    cases h' with
    | uniqueOne => cases hvs; exact .inr ⟨_, _, rfl, rfl, equals_refl (hw _ (by simp))⟩
    | nothing => cases hvs
    | first => cases hst
    | deep => cases hst
    | unique => cases hvs
    | hash => cases hst
  | @hash as vs rs hr hg =>
    generalize hst : "hash".toList = st at h'
    generalize hvs : (as :: vs).map Value.map = ws at h'
    cases h' with
    | nothing => cases hvs
    | first => cases hst
    | unique => cases hst
    | uniqueOne => cases hst
    | deep => cases hst
    | @hash as' vs' rs' hr' hg' =>
      have e : as :: vs = as' :: vs' := List.map_injective_iff.2 (fun _ _ h => by cases h; rfl) hvs
      refine .inr ⟨_, _, rfl, rfl, maps_equal hr hr' (fun k hk => by rw [hg k hk, hg' k hk, e]) (fun k x y hk hx hy => ?_)⟩
      rw [hg k hk, e, ← hg' k hk, hy] at hx
      cases hx
      exact equals_refl (Entries.WF_of_get hr' hy)
  | @deep v vs r hd =>
    generalize hst : "deep".toList = st at h'
    generalize hvs : v :: vs = us at h'
    cases h' with
    | deep hd' => cases hvs; exact .inr ⟨_, _, rfl, rfl, deepChain_congr hd rfl hw (hw v (by simp)) (equals_refl (hw v (by simp))) hd'⟩
    | nothing => cases hvs
    | first => cases hst
    | unique => cases hst
    | uniqueOne => cases hst
    | hash => cases hst

/-- C92: with a strategy that there is not, the lookup fails. -/
theorem C92_unknown {E : Env} (he : StatelessEnv E) {s : St} (hs : Session E s) (hl : s.v.locked = []) {sc : Scope} {ls : List Level}
    {root st : Str} {opts : Entries} (hq : Question E sc ls root opts st)
    (hst : st ∉ ["first".toList, "unique".toList, "hash".toList, "deep".toList]) (k : Key) (hk : k.root = root) (ex : Option ExplOpts) :
    Gives E (nextInvocation s sc ex) k opts (.panic (.unknownStrategy st)) := by
  obtain ⟨ho, htop, hroot, hr, hu, hopt, hm⟩ := hq
  have hnk : newKey root = .ok ⟨root, [.name root]⟩ := by simpa [joinDots] using segments_key (xs := [root]) (by simp) (by simpa using hroot)
  have hsite := refSite_ordinary ho 0 (fun v hv => (hopt v hv).1)
  have hsaid := strategy_said (E := E) ho (k := ⟨root, [.name root]⟩) (ls.map (resolvedOf E sc)) (fun v hv => (hopt v hv).2) hm
  have hg : getStrategy st none = .panic (.unknownStrategy st) := by
    simp only [List.mem_cons, List.not_mem_nil, or_false, not_or] at hst
    unfold getStrategy
    rw [if_neg hst.1, if_neg hst.2.1, if_neg hst.2.2.1, if_neg hst.2.2.2]
  rcases htop with ht | ⟨ht, hf, hn⟩
  · refine (C81_answer E he hs hl sc ex _ opts _).2 ⟨1, 0, ?_⟩
    unfold refAnswer
    rw [if_neg (by rw [hk]; exact hr), ← Ans.bind_assoc, hsite, Ans.pure_bind]
    unfold refLookup
    rw [if_neg (by rw [hk]; exact hr), ht, hk]
    unfold refCall refConfig
    simp only [hnk, Ans.of_ok_bind, hsaid.1, hg]
    rfl
  · refine (C82_answer_partial E he ht hf hs hl sc ex (by rw [hk]; exact hr) (by rw [hk]; exact hn) opts _).2 ⟨1, 0, ?_⟩
    unfold commandAnswer
    rw [← Ans.bind_assoc, hsite, Ans.pure_bind, hk]
    unfold ByOptions
    simp only [hnk, Ans.of_ok_bind, hsaid.1, hg]
    rfl

/-! ### A set-up -/

theorem marked_of_occurs {v : Value} {x : Str} (h : Occurs v x) (hx : Marked x) : marked v = true := by
  induction h with
  | str => rw [marked]; exact (hasMarker_iff _).2 hx
  | @elem es v x hm _ ih =>
    have := ih hx
    rw [marked]
    induction es with
    | nil => cases hm
    | cons w es ih' =>
      rw [markedL, Bool.or_eq_true]
      rcases List.mem_cons.1 hm with rfl | hm
      · exact .inl this
      · exact .inr (ih' hm)
  | @key es k v x hm _ ih =>
    have := ih hx
    rw [marked]
    induction es with
    | nil => cases hm
    | cons w es ih' =>
      obtain ⟨a, b⟩ := w
      rw [markedE, Bool.or_eq_true, Bool.or_eq_true]
      rcases List.mem_cons.1 hm with h | hm
      · cases h; exact .inl (.inl this)
      · exact .inr (ih' hm)
  | @val es k v x hm _ ih =>
    have := ih hx
    rw [marked]
    induction es with
    | nil => cases hm
    | cons w es ih' =>
      obtain ⟨a, b⟩ := w
      rw [markedE, Bool.or_eq_true, Bool.or_eq_true]
      rcases List.mem_cons.1 hm with h | hm
      · cases h; exact .inl (.inr this)
      · exact .inr (ih' hm)

theorem unmarked_of_marked {v : Value} (h : marked v = false) : Unmarked v := fun x hx hm => by
  rw [marked_of_occurs hx hm] at h; cases h

namespace Ordinary92

def nodeData : Entries := [(s "motd", s "hello"), (s "app::users", .map [(s "eve", .map [(s "uid", .int 9), (s "shell", s "zsh")])])]

def commonData : Entries := [
  (s "lookup_options", .map [(s "app::users", .map [(s "merge", s "deep")])]),
  (s "motd", s "welcome"),
  (s "app::users", .map [(s "eve", .map [(s "uid", .int 7), (s "home", s "/home/eve")]), (s "adam", .map [(s "uid", .int 1)])])]

/-- A level for each node, one for each site, of which there is no file, and a common one. -/
def levels : List Level := [
  ⟨"nodes".toList, [.text "nodes/".toList, .var "node".toList ["name".toList], .text ".yaml".toList], some nodeData⟩,
  ⟨"sites".toList, [.text "sites/".toList, .var "site".toList [], .text ".yaml".toList], none⟩,
  ⟨"common".toList, [.text "common.yaml".toList], some commonData⟩]

def world : Env :=
  { mk (configOf levels) [("/h/data/nodes/web.yaml".toList, .map nodeData), ("/h/data/common.yaml".toList, .map commonData)] with
    top := .mux, muxFns := some [.config, .env] }

def scope : Scope := .map [(s "node", .map [(s "name", s "web")])]

example : world.readYaml "/h/hiera.yaml".toList = .value (cfg [entry "nodes" "nodes/%{node.name}.yaml", entry "sites" "sites/%{site}.yaml",
    entry "common" "common.yaml"]) := congrArg FileRes.value (show configOf levels = _ by decide +kernel)

theorem stateless : StatelessEnv world := by
  refine ⟨.inr ⟨rfl, [.env], rfl, by simp⟩, fun fs f h hf => ?_, (fun _ _ h => nomatch h), (fun _ _ _ h => nomatch h)⟩
  cases h
  rcases List.mem_cons.1 hf with h | h
  · subst h; trivial
  · rw [List.mem_singleton.1 h]; trivial

theorem ordinary : Ordinary world scope levels where
  config := rfl
  named := by decide
  distinct := by decide
  paths := by
    intro l hl
    simp only [levels, List.mem_cons, List.not_mem_nil, or_false] at hl
    rcases hl with rfl | rfl | rfl
    · refine ⟨by decide, fun p hp => ?_⟩
      simp only [List.mem_cons, List.not_mem_nil, or_false] at hp
      rcases hp with rfl | rfl | rfl
      · show '%' ∉ _; decide
      · exact ⟨⟨by decide, by decide⟩, fun f hf => by cases List.mem_singleton.1 hf; exact ⟨by decide, by decide⟩⟩
      · show '%' ∉ _; decide
    · refine ⟨by decide, fun p hp => ?_⟩
      simp only [List.mem_cons, List.not_mem_nil, or_false] at hp
      rcases hp with rfl | rfl | rfl
      · show '%' ∉ _; decide
      · exact ⟨⟨by decide, by decide⟩, fun f hf => nomatch hf⟩
      · show '%' ∉ _; decide
    · refine ⟨by decide, fun p hp => ?_⟩
      cases List.mem_singleton.1 hp
      show '%' ∉ _; decide
  vars := by
    intro l _ x fs _ v hv
    have : ∀ e ∈ ([(s "node", .map [(s "name", s "web")])] : Entries), marked e.2 = false := by decide
    obtain ⟨e, he, _, rfl⟩ := Entries.get_mem (es := [(s "node", .map [(s "name", s "web")])]) hv
    exact unmarked_of_marked (this e he)
  dataDir := fun h => by have := (hasMarker_iff _).2 h; revert this; decide
  pluginDir := fun h => by have := (hasMarker_iff _).2 h; revert this; decide
  there := by
    intro l hl es he
    simp only [levels, List.mem_cons, List.not_mem_nil, or_false] at hl
    rcases hl with rfl | rfl | rfl
    · cases he
      have hf : Level.file world scope ⟨"nodes".toList, [.text "nodes/".toList, .var "node".toList ["name".toList], .text ".yaml".toList], some nodeData⟩ =
        "/h/data/nodes/web.yaml".toList := by decide +kernel
      rw [hf]
      refine ⟨by decide +kernel, by rfl, ?_⟩
      simp [WF_map, nodeData, s, UniqueKeys]
    · cases he
    · cases he
      have hf : Level.file world scope ⟨"common".toList, [.text "common.yaml".toList], some commonData⟩ =
        "/h/data/common.yaml".toList := by decide +kernel
      rw [hf]
      refine ⟨by decide +kernel, by rfl, ?_⟩
      simp [WF_map, commonData, s, UniqueKeys]
  absent := by
    have : ∀ l ∈ levels, l.data.isNone = true → world.stat (l.file world scope) = false := by decide +kernel
    exact fun l hl h => this l hl (by rw [h]; rfl)

/-- The users, merged deeply because the common level says so. -/
theorem question : Question world scope levels "app::users".toList [] "deep".toList where
  setup := ordinary
  top := .inr ⟨rfl, rfl, by decide, by decide⟩
  part := ⟨by unfold Unquoted; decide, by decide, alpha_not_int (by decide)⟩
  ordinary := by decide
  values := fun v hv => unmarked_of_marked ((by decide +kernel : ∀ v ∈ valuesOf levels "app::users".toList, marked v = false) v hv)
  options := by
    have : valuesOf levels "lookup_options".toList = [.map [(s "app::users", .map [(s "merge", s "deep")])]] := by decide +kernel
    rw [this]
    intro v hv
    cases List.mem_singleton.1 hv
    refine ⟨unmarked_of_marked (by decide +kernel), _, rfl, fun o ho => ?_⟩
    have e : Entries.getS [(s "app::users", .map [(s "merge", s "deep")])] "app::users".toList = some (.map [(s "merge", s "deep")]) := by decide +kernel
    rw [e] at ho
    cases ho
    refine ⟨_, rfl, by decide +kernel, fun m hm => ?_⟩
    have e : Entries.getS [(s "merge", s "deep")] "merge".toList = some (s "deep") := by decide +kernel
    rw [e] at hm
    cases hm
    exact ⟨_, rfl⟩
  merge := .said rfl (by decide +kernel)

theorem mergeable : Mergeable "deep".toList (valuesOf levels "app::users".toList) :=
  ⟨by decide, fun h => absurd h (by decide), fun h => absurd h (by decide)⟩

/-- The answer for `app::users.eve`. -/
example : ∃ k, newKey "app::users.eve".toList = .ok k ∧ Gives world (newInvocation scope none) k []
    (.ok (some (.map [(s "uid", .int 9), (s "shell", s "zsh"), (s "home", s "/home/eve")]))) := by
  refine ⟨⟨"app::users.eve".toList, [.name "app::users".toList, .name "eve".toList]⟩, by decide +kernel, ?_⟩
  exact (C81_answer world stateless (.start scope none) rfl scope none _ [] _).2 (answer_of (n := 1) (m := 3) (by decide +kernel))

example : ∃ k v, newKey "app::users.eve".toList = .ok k ∧ Textbook "deep".toList (valuesOf levels "app::users".toList) v ∧
    Gives world (newInvocation scope none) k [] (.ok (v.bind (fieldOf ["eve".toList]))) :=
  C92_textbook stateless (.start scope none) rfl question mergeable (fs := ["eve".toList])
    (fun f hf => by cases List.mem_singleton.1 hf; exact ⟨by unfold Unquoted; decide, by decide, alpha_not_int (by decide)⟩) none

example : Gives world (newInvocation scope none) ⟨"app::users".toList, [.name "app::users".toList]⟩ [(s "merge", s "shallow")]
    (.panic (.unknownStrategy "shallow".toList)) :=
  C92_unknown stateless (.start scope none) rfl (ls := levels) (sc := scope) (root := "app::users".toList)
    ⟨question.setup, question.top, question.part, question.ordinary, question.values, question.options, .asked rfl⟩ (by decide) _ rfl none

end Ordinary92

end Hiera
