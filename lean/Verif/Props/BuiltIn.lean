import Verif.Spec.BuiltIn
import Verif.Props.Ordinary
import Verif.Props.Found

/-!
# C116: without a configuration file
-/

set_option autoImplicit false

namespace Hiera

open Value Spec

/-! ### The configuration -/

theorem newCfg_spelledOut (E : Env) (p : Str) : newCfg E.cfg p (.value spelledOut) =
    .ok ⟨dir p, p, makeDefaultConfig E.cfg (dir p), makeDefaultHierarchy (dir p), []⟩ := rfl

theorem newCfg_sayingNothing (E : Env) (p : Str) : newCfg E.cfg p (.value sayingNothing) =
    .ok ⟨dir p, p, makeDefaultConfig E.cfg (dir p), makeDefaultHierarchy (dir p), []⟩ := rfl

/-- C116: without a configuration file, every lookup is as with one in the same directory that says nothing, or that says in so
many words what is built in. -/
theorem C116_missing {E : Env} (he : StatelessEnv E) {sc : Scope} {p : Str} (hm : E.readYaml E.configPath = .missing)
    (hd : dir p = dir E.configPath) (hp : E.readYaml p = .value spelledOut ∨ E.readYaml p = .value sayingNothing)
    {s s' : St} (hs : Session E s) (hs' : Session (withFiles E p E.readYaml E.readJson) s')
    (ex ex' : Option ExplOpts) (k : Key) (o : Entries) (r : Res (Option Value)) :
    Gives (withFiles E p E.readYaml E.readJson) (nextInvocation s' sc ex') k o r ↔ Gives E (nextInvocation s sc ex) k o r := by
  have hc : newCfg E.cfg E.configPath (E.readYaml E.configPath) =
      .ok ⟨dir E.configPath, [], makeDefaultConfig E.cfg (dir E.configPath), makeDefaultHierarchy (dir E.configPath), []⟩ := by
    rw [hm]; rfl
  have hc' : newCfg E.cfg p (E.readYaml p) =
      .ok ⟨dir E.configPath, p, makeDefaultConfig E.cfg (dir E.configPath), makeDefaultHierarchy (dir E.configPath), []⟩ := by
    rcases hp with hp | hp <;> rw [hp]
    · rw [newCfg_spelledOut, hd]
    · rw [newCfg_sayingNothing, hd]
  exact C105_levels he hc hc' rfl rfl (pre := makeDefaultHierarchy (dir E.configPath)) (post := []) (as := []) (as' := [])
    (by simp) (by simp) (by simp) .nil .nil (fun _ => rfl) hs hs' ex ex' k o r

/-! ### The data -/

/-- The entries, resolved. -/
def resolvedRoot (E : Env) : Entry :=
  { root := dir E.configPath, dataDir := ".".toList, pluginDir := seenFrom (dir E.configPath) (seenFrom (dir E.configPath) (thePluginDir E)),
    options := some [], function := some (.dataHash, "yaml_data".toList), name := "Root".toList,
    locations := some [.path "data.yaml".toList (rootFile E) (E.stat (rootFile E))] }

def resolvedCommon (E : Env) : Entry :=
  { root := dir E.configPath, dataDir := theDataDir E, pluginDir := seenFrom (dir E.configPath) (seenFrom (dir E.configPath) (thePluginDir E)),
    options := some [], function := some (.dataHash, "yaml_data".toList), name := "Common".toList,
    locations := some [.path "common.yaml".toList (commonFile E) (E.stat (commonFile E))] }

theorem refCfg_yaml {E : Env} {r : Ref} {C : Ctx} : refCfg E r C "yaml_data".toList = pure "yaml_data".toList := refCfg_unmarked (fun h => by
  have := (hasMarker_iff _).2 h
  revert this; decide)

theorem refDefaults_plain {E : Env} (h1 : ¬Marked (theDataDir E)) (h2 : ¬Marked (thePluginDir E)) (r : Ref) (C : Ctx) :
    refResolve E r C none (makeDefaultConfig E.cfg (dir E.configPath)) = pure (resolvedDefaults E) := by
  have hf : ∀ e : Entry, e.function = some (.dataHash, "yaml_data".toList) → refFunction E r C none e = pure e := by
    intro e he
    obtain ⟨_, _, _, _, _, _, _, _⟩ := e
    dsimp only at he
    subst he
    unfold refFunction
    simp only [refCfg_yaml]
    rfl
  unfold refResolve
  rw [hf _ rfl, Ans.pure_bind, hf _ rfl, Ans.pure_bind]
  have h1 : refDir E r C (makeDefaultConfig E.cfg (dir E.configPath)).dataDir ((none : Option Entry).map (·.dataDir)) E.cfg.defaultDataDir = pure (theDataDir E) :=
    refDir_unmarked h1
  have h2 : refDir E r C (makeDefaultConfig E.cfg (dir E.configPath)).pluginDir ((none : Option Entry).map (·.pluginDir)) E.cfg.defaultPluginDir = pure (thePluginDir E) :=
    refDir_unmarked h2
  rw [h1, Ans.pure_bind, h2, Ans.pure_bind]
  rfl

theorem refResolve_builtIn (E : Env) (r : Ref) (C : Ctx) :
    refResolveAll E r C (resolvedDefaults E) (makeDefaultHierarchy (dir E.configPath)) = pure [resolvedRoot E, resolvedCommon E] := by
  have u : ∀ x : Str, hasMarker x = false → refCfg E r C x = pure x := fun x h => refCfg_unmarked (fun hm => by
    rw [(hasMarker_iff _).2 hm] at h; cases h)
  have hf1 : ∀ e : Entry, e.function = none → refFunction E r C (some (resolvedDefaults E)) e = pure { e with function := some (.dataHash, "yaml_data".toList) } := by
    intro e he
    obtain ⟨_, _, _, _, _, _, _, _⟩ := e
    dsimp only at he
    subst he
    rfl
  have hf2 : ∀ e : Entry, e.function = some (.dataHash, "yaml_data".toList) → refFunction E r C (some (resolvedDefaults E)) e = pure e := by
    intro e he
    obtain ⟨_, _, _, _, _, _, _, _⟩ := e
    dsimp only at he
    subst he
    unfold refFunction
    simp only [refCfg_yaml]
    rfl
  have hp : ∀ d x, hasMarker x = false → refLocations E r C d (some [.path x [] false]) = pure (some [.path x (join d x) (E.stat (join d x))]) := by
    intro d x hx
    unfold refLocations refLocs refLocs refLoc
    simp only [u x hx]
    rfl
  unfold makeDefaultHierarchy refResolveAll refResolveAll refResolveAll refResolve
  rw [hf1 _ rfl, Ans.pure_bind, hf2 _ rfl, Ans.pure_bind, hf1 _ rfl, Ans.pure_bind, hf2 _ rfl, Ans.pure_bind]
  have h1 : refDir E r C ['.'] ((some (resolvedDefaults E)).map (·.dataDir)) E.cfg.defaultDataDir = pure ['.'] := by
    unfold refDir
    rw [if_neg (by simp), u _ (by decide)]
  dsimp only
  have h2 := fun d => hp d "data.yaml".toList (by decide)
  have h3 := fun d => hp d "common.yaml".toList (by decide)
  rw [h1, Ans.pure_bind]
  simp only [h2, h3]
  rfl

theorem refEntry_file {E : Env} {e : Entry} {w f : Str} (hf : e.function = some (.dataHash, "yaml_data".toList)) (ho : e.options = some [])
    (hl : e.locations = some [.path w f (E.stat f)]) {d : Option Entries} (hd : FileHas E f d) (r : Ref) (C : Ctx) (k : Key) (st : Strategy) :
    refEntry E r C k st e = match d.bind (fun es => Entries.getS es k.root) with
      | none => pure none
      | some v => refInterp E r C true v := by
  obtain ⟨_, _, _, _, _, _, _, _⟩ := e
  dsimp only at hf ho hl
  subst hf ho hl
  show refAt E r C k _ (.path w f (E.stat f)) = _
  cases d with
  | none =>
    rw [show E.stat f = false from hd]
    rfl
  | some es =>
    obtain ⟨h1, h2, h3⟩ := hd
    rw [h1]
    generalize he : Entry.mk _ _ _ _ _ _ _ _ = e
    have hh : refHash E e "yaml_data".toList (refOpts e (some (.path w f true))) = .ok es := by
      unfold refHash
      rw [if_pos rfl]
      have : ∀ p : Str, fileData E E.readYaml (refOpts e (some (.path w p true))) =
        match E.readYaml p with
        | .missing => .ok []
        | .err e => .panic e
        | .value (.map es) => .ok es
        | .value _ => .panic (.notHash p) := fun p => by rw [← he]; rfl
      rw [this, h2]
    have hs : refSource E r C k e (some (.path w f true)) = (Ans.of (refHash E e "yaml_data".toList (refOpts e (some (.path w f true)))) >>= fun es =>
        match Entries.getS es k.root with
        | some v => refInterp E r C true v
        | none => pure none) := by
      unfold refSource
      rw [← he]
      rfl
    show refSource E r C k e (some (.path w f true)) = _
    rw [hs, hh, Ans.of_ok_bind]
    show _ = match Entries.getS es k.root with | none => pure none | some v => refInterp E r C true v
    cases Entries.getS es k.root <;> rfl

theorem unconfigured_WF {E : Env} {d d' : Option Entries} (hc : NoConfig E d d') {key : Str} {v : Value}
    (h : v ∈ valuesOf (twoLevels d d') key) : WF v := by
  have one : ∀ (f : Str) (x : Option Entries), FileHas E f x → x.bind (fun es => Entries.getS es key) = some v → WF v := by
    intro f x hx hv
    cases x with
    | none => cases hv
    | some es => exact Entries.WF_of_get hx.2.2 hv
  obtain ⟨l, hl, hv⟩ := List.mem_filterMap.1 h
  simp only [twoLevels, List.mem_cons, List.not_mem_nil, or_false] at hl
  rcases hl with rfl | rfl
  exacts [one _ _ hc.root hv, one _ _ hc.common hv]

theorem refHierarchy_builtIn {E : Env} {d d' : Option Entries} (hc : NoConfig E d d') (r : Ref) (C : Ctx)
    (k : Key) (st : Strategy) (hu : ∀ v ∈ valuesOf (twoLevels d d') k.root, Unmarked v) :
    refHierarchy E r C k st [resolvedRoot E, resolvedCommon E] = pure (outcome st (twoLevels d d') k.root) := by
  have one : ∀ (e : Entry) (l : Level), l ∈ twoLevels d d' → (refEntry E r C k st e = match l.data.bind (fun es => Entries.getS es k.root) with
      | none => pure none
      | some v => refInterp E r C true v) → refEntry E r C k st e = pure (l.has k.root) := by
    intro e l hl he
    rw [he, Level.has]
    cases hv : l.data.bind (fun es => Entries.getS es k.root) with
    | none => rfl
    | some v => exact refInterp_unmarked true (unmarked_iff (hu v (List.mem_filterMap.2 ⟨l, hl, hv⟩)))
  unfold refHierarchy
  rw [← refMerge_pure]
  congr 1
  show [refEntry E r C k st (resolvedRoot E), refEntry E r C k st (resolvedCommon E)] = _
  rw [one _ ⟨"Root".toList, [], d⟩ (by simp [twoLevels]) (refEntry_file rfl rfl rfl hc.root ..),
    one _ ⟨"Common".toList, [], d'⟩ (by simp [twoLevels]) (refEntry_file rfl rfl rfl hc.common ..)]
  rfl

theorem refSite_builtIn {E : Env} {sc : Scope} {d d' : Option Entries} (hc : NoConfig E d d') (n : Nat)
    (hu : ∀ v ∈ valuesOf (twoLevels d d') "lookup_options".toList, Unmarked v) :
    (Ans.of (newCfg E.cfg E.configPath (E.readYaml E.configPath)) >>= refSite E (ref E none n) ⟨sc, .call⟩) =
      pure ⟨[resolvedRoot E, resolvedCommon E], asMap (outcome (.deep []) (twoLevels d d') "lookup_options".toList)⟩ := by
  rw [hc.config]
  show refSite E (ref E none n) ⟨sc, .call⟩ ⟨_, _, makeDefaultConfig E.cfg (dir E.configPath), makeDefaultHierarchy (dir E.configPath), []⟩ = _
  unfold refSite refLevels
  simp only [refDefaults_plain hc.dataDir hc.pluginDir, Ans.pure_bind, refResolve_builtIn]
  have : refResolveAll E (ref E none n) ⟨sc, .call⟩ (resolvedDefaults E) [] = pure [] := rfl
  rw [this, Ans.pure_bind, refHierarchy_builtIn hc _ _ lookupOptionsKey _ hu]
  rfl

/-! ### Lookups -/

theorem builtIn_answer {E : Env} (he : StatelessEnv E) {s : St} (hs : Session E s) (hl : s.v.locked = []) {sc : Scope} {d d' : Option Entries}
    (hc : NoConfig E d d') {root st : Str} {opts : Entries} (htop : UsualTop E root) (hroot : KeyPart root) (hr : root ≠ "lookup_options".toList)
    (hu : ∀ v ∈ valuesOf (twoLevels d d') root, Unmarked v)
    (hopt : ∀ v ∈ valuesOf (twoLevels d d') "lookup_options".toList, Unmarked v ∧ OptionsAre root v)
    (hm : MergedBy (twoLevels d d') root opts st) (src : Str) (fs : List Str) (ex : Option ExplOpts) {stv : Strategy}
    (hst : getStrategy st none = .ok stv) :
    ∃ r, ((E.top = .config ∧ r = outcome stv (twoLevels d d') root) ∨ (E.top = .mux ∧ r = (outcome stv (twoLevels d d') root).map stv.convertValue)) ∧
      Gives E (nextInvocation s sc ex) ⟨src, .name root :: fs.map .name⟩ opts (.ok (r.bind (fieldOf fs))) := by
  have hk : (⟨src, .name root :: fs.map .name⟩ : Key).root = root := rfl
  have hnk : newKey root = .ok ⟨root, [.name root]⟩ := by simpa [joinDots] using segments_key (xs := [root]) (by simp) (by simpa using hroot)
  have hsite := refSite_builtIn (sc := sc) hc 1 (fun v hv => (hopt v hv).1)
  have hsaid := strategy_of (E := E) (fun _ hv => unconfigured_WF hc hv) (k := ⟨root, [.name root]⟩) [resolvedRoot E, resolvedCommon E]
    (fun v hv => (hopt v hv).2) hm
  generalize hls : twoLevels d d' = ls at *
  have hh : ∀ r C, refHierarchy E r C ⟨root, [.name root]⟩ stv [resolvedRoot E, resolvedCommon E] = pure (outcome stv ls root) := by
    intro r C
    rw [← hls] at hu ⊢
    exact refHierarchy_builtIn hc r C ⟨root, [.name root]⟩ stv hu
  have hclean := outcome_clean (p := fun s => ¬Marked s) stv hu
  have hdig : ∀ v, (⟨src, .name root :: fs.map .name⟩ : Key).digPure v = fieldOf fs v := fun v => digParts_fields fs v
  rcases htop with ht | ⟨ht, hf, hn⟩
  · refine ⟨_, .inl ⟨ht, rfl⟩, (C81_answer E he hs hl sc ex _ opts _).2 ⟨1, 0, ?_⟩⟩
    unfold refAnswer
    rw [if_neg (by exact hr), ← Ans.bind_assoc, hsite, Ans.pure_bind]
    unfold refLookup
    rw [if_neg (by exact hr), ht, hk]
    unfold refCall refConfig
    simp only [hnk, Ans.of_ok_bind, hsaid.1, hsaid.2, hst]
    rw [hh, Ans.pure_bind]
    cases hv : outcome stv ls root with
    | none => rfl
    | some v =>
      show (do let r ← refInterp E (ref E (some _) 0) _ true v; pure (r.bind _) : Ans (Option Value)) = _
      rw [refInterp_unmarked true (unmarked_iff (hclean v hv)), Ans.pure_bind]
      show some (Res.ok _) = some (Res.ok _)
      rw [Option.bind_some, Option.bind_some, hdig]
  · refine ⟨_, .inr ⟨ht, rfl⟩, (C82_answer_partial E he ht hf hs hl sc ex (by exact hr) (by exact hn) opts _).2 ⟨1, 0, ?_⟩⟩
    unfold commandAnswer
    rw [← Ans.bind_assoc, hsite, Ans.pure_bind, hk]
    unfold ByOptions
    simp only [hnk, Ans.of_ok_bind, hsaid.1, hsaid.2, hst]
    rw [hh, Ans.pure_bind]
    cases hv : outcome stv ls root with
    | none => rfl
    | some v =>
      show (do let r ← refInterp E (ref E (some _) 1) _ true (stv.convertValue v); pure (r.bind _) : Ans (Option Value)) = _
      rw [refInterp_unmarked true (unmarked_iff (clean_convertValue stv (hclean v hv))), Ans.pure_bind]
      show some (Res.ok _) = some (Res.ok _)
      rw [Option.map_some, Option.bind_some, Option.bind_some, hdig]

/-- C116: without a configuration file, the lookup of a key gives the merge of what `data.yaml` and `common.yaml` have for it, as
the caller, or the lookup options in the one or the other, want it merged. -/
theorem C116_textbook {E : Env} (he : StatelessEnv E) {s : St} (hs : Session E s) (hl : s.v.locked = []) {sc : Scope} {d d' : Option Entries}
    (hc : NoConfig E d d') {root st : Str} {opts : Entries} (htop : UsualTop E root) (hroot : KeyPart root) (hr : root ≠ "lookup_options".toList)
    (hu : ∀ v ∈ valuesOf (twoLevels d d') root, Unmarked v)
    (hopt : ∀ v ∈ valuesOf (twoLevels d d') "lookup_options".toList, Unmarked v ∧ OptionsAre root v)
    (hby : MergedBy (twoLevels d d') root opts st) (hm : Mergeable st (valuesOf (twoLevels d d') root)) {fs : List Str}
    (hf : ∀ f ∈ fs, KeyPart f) (ex : Option ExplOpts) :
    ∃ k v, newKey (joinDots (root :: fs)) = .ok k ∧ Textbook st (valuesOf (twoLevels d d') root) v ∧
      Gives E (nextInvocation s sc ex) k opts (.ok (v.bind (fieldOf fs))) := by
  obtain ⟨stv, hst⟩ := mergeable_strategy hm
  obtain ⟨r, h1, h2⟩ := builtIn_answer he hs hl hc htop hroot hr hu hopt hby (joinDots (root :: fs)) fs ex hst
  refine ⟨_, r, segments_key (by simp) (fun y hy => ?_), ?_, h2⟩
  · rcases List.mem_cons.1 hy with rfl | hy
    · exact hroot
    · exact hf y hy
  · have := outcome_textbook (fun v hv => unconfigured_WF hc hv) hst hm
    rcases h1 with ⟨_, rfl⟩ | ⟨_, rfl⟩
    · exact this.1
    · exact this.2

/-! ### An example -/

namespace BuiltIn116

open World

def rootData : Entries := [(s "motd", s "hello"), (s "users", .map [(s "eve", .int 9)])]

def commonData : Entries := [(s "lookup_options", .map [(s "users", .map [(s "merge", s "deep")])]), (s "motd", s "welcome"),
  (s "users", .map [(s "eve", .int 7), (s "adam", .int 1)])]

/-- There is no `/h/none.yaml`; `/h/hiera.yaml` says what is built in. -/
def world : Env :=
  { mk spelledOut [("/h/data.yaml".toList, .map rootData), ("/h/data/common.yaml".toList, .map commonData)] with
    top := .mux, muxFns := some [.config, .env], configPath := "/h/none.yaml".toList }

theorem stateless : StatelessEnv world := by
  refine ⟨.inr ⟨rfl, [.env], rfl, by simp⟩, fun fs f h hf => ?_, (fun _ _ h => nomatch h), (fun _ _ _ h => nomatch h)⟩
  cases h
  rcases List.mem_cons.1 hf with h | h
  · subst h; trivial
  · rw [List.mem_singleton.1 h]; trivial

theorem unconfigured : NoConfig world (some rootData) (some commonData) where
  config := rfl
  dataDir := fun h => by have := (hasMarker_iff _).2 h; revert this; decide
  pluginDir := fun h => by have := (hasMarker_iff _).2 h; revert this; decide
  root := by
    rw [show rootFile world = "/h/data.yaml".toList by decide +kernel]
    refine ⟨by decide +kernel, by rfl, ?_⟩
    simp [WF_map, rootData, s, UniqueKeys]
  common := by
    rw [show commonFile world = "/h/data/common.yaml".toList by decide +kernel]
    refine ⟨by decide +kernel, by rfl, ?_⟩
    simp [WF_map, commonData, s, UniqueKeys]

example (sc : Scope) (k : Key) (o : Entries) (r : Res (Option Value)) :
    Gives (withFiles world "/h/hiera.yaml".toList world.readYaml world.readJson) (newInvocation sc none) k o r ↔ Gives world (newInvocation sc none) k o r :=
  C116_missing stateless rfl (by decide +kernel) (.inl rfl) (.start sc none) (.start sc none) none none k o r

example : ∃ k v, newKey "users.eve".toList = .ok k ∧ Textbook "deep".toList [.map [(s "eve", .int 9)], .map [(s "eve", .int 7), (s "adam", .int 1)]] v ∧
    Gives world (newInvocation (.map []) none) k [] (.ok (v.bind (fieldOf ["eve".toList]))) := by
  have hv : valuesOf (twoLevels (some rootData) (some commonData)) "users".toList =
    [.map [(s "eve", .int 9)], .map [(s "eve", .int 7), (s "adam", .int 1)]] := by decide +kernel
  have ho : valuesOf (twoLevels (some rootData) (some commonData)) "lookup_options".toList = [.map [(s "users", .map [(s "merge", s "deep")])]] := by decide +kernel
  rw [← hv]
  refine C116_textbook stateless (.start (.map []) none) rfl unconfigured (root := "users".toList) (st := "deep".toList) (.inr ⟨rfl, rfl, by decide, by decide⟩)
    ⟨by unfold Unquoted; decide, by decide, alpha_not_int (by decide)⟩ (by decide)
    (fun v hv => unmarked_of_marked ((by decide +kernel : ∀ v ∈ valuesOf (twoLevels (some rootData) (some commonData)) "users".toList, marked v = false) v hv))
    ?_ (.said rfl (by decide +kernel)) ⟨by decide, fun h => absurd h (by decide), fun h => absurd h (by decide)⟩ (fs := ["eve".toList])
    (fun f hf => by cases List.mem_singleton.1 hf; exact ⟨by unfold Unquoted; decide, by decide, alpha_not_int (by decide)⟩) none
  rw [ho]
  intro v hv
  cases List.mem_singleton.1 hv
  refine ⟨unmarked_of_marked (by decide +kernel), _, rfl, fun o ho => ?_⟩
  have e : Entries.getS [(s "users", .map [(s "merge", s "deep")])] "users".toList = some (.map [(s "merge", s "deep")]) := by decide +kernel
  rw [e] at ho
  cases ho
  refine ⟨_, rfl, by decide +kernel, fun m hm => ?_⟩
  have e : Entries.getS [(s "merge", s "deep")] "merge".toList = some (s "deep") := by decide +kernel
  rw [e] at hm
  cases hm
  exact ⟨_, rfl⟩

/-- What it is. -/
example : ((eval world 8).lookup ⟨"users".toList, [.name "users".toList]⟩ [] (newInvocation (.map []) none)).map (·.1) =
    some (.ok (some (.map [(s "eve", .int 9), (s "adam", .int 1)]))) := by decide +kernel

end BuiltIn116

end Hiera
