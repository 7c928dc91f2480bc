/-
  Properties of configurations: C39, C40, C41, C67.
-/
import Verif.Lemmas.Config
import Verif.Lemmas.Resolve
import Verif.Lemmas.World

set_option autoImplicit false

namespace Hiera
open Spec

/-- A value that strings are written as. -/
private abbrev s (x : String) : Value := .str x.toList

/-! ### C39 -/

/-- C39: a file that the schema accepts is accepted exactly if it is not ambiguous. -/
theorem C39_ambiguous (E : CfgEnv) (hE : ∀ x, E.toStr (.str x) = x) (path : Str) (es : Entries)
    (hw : Value.WF (.map es)) (hc : isCfg es = true) :
    (∃ c, newCfg E path (.value (.map es)) = .ok c) ↔ ¬Ambiguous es := by
  unfold newCfg
  simp only [hc, if_true]
  exact createConfig_iff hE path hw hc

/-- C39: an ambiguous file is rejected, whatever else is in it. -/
theorem C39_rejected (E : CfgEnv) (hE : ∀ x, E.toStr (.str x) = x) (path : Str) (es : Entries)
    (hw : Value.WF (.map es)) (ha : Ambiguous es) : ∃ e, newCfg E path (.value (.map es)) = .panic e := by
  by_cases hc : isCfg es = true
  · cases h : newCfg E path (.value (.map es)) with
    | panic e => exact ⟨e, rfl⟩
    | ok c => exact absurd ha ((C39_ambiguous E hE path es hw hc).1 ⟨c, h⟩)
  · exact ⟨.schema, by unfold newCfg; simp only [hc]; rfl⟩

/-- Two entries, the second with two functions. -/
private def cfgBad : Entries :=
  [(s "version", .int 5), (s "hierarchy", .arr [.map [(s "name", s "a"), (s "path", s "a.yaml")],
    .map [(s "name", s "b"), (s "data_hash", s "yaml_data"), (s "lookup_key", s "env")]])]

/-- Two entries. -/
private def cfgGood : Entries :=
  [(s "version", .int 5), (s "defaults", .map [(s "datadir", s "hiera"), (s "options", .map [(s "o", s "%{x}")])]),
   (s "hierarchy", .arr [.map [(s "name", s "a"), (s "path", s "a.yaml")],
    .map [(s "name", s "b"), (s "datadir", s "more"), (s "lookup_key", s "env"), (s "paths", .arr [s "x", s "%{y}"])]])]

private def cenv : CfgEnv := ⟨fun v => match v with | .str x => x | _ => [], fun _ => none⟩

example : Value.WF (.map cfgBad) ∧ isCfg cfgBad = true ∧ Ambiguous cfgBad := by
  refine ⟨by simp [Value.WF, Value.WFEntries, Value.WFList, cfgBad, Value.equals], by decide, .inr ⟨_, .head _, _, .tail _ (.head _), .inl ⟨_, .tail _ (.head _), .inl ?_⟩⟩⟩
  exact ⟨"data_hash".toList, by decide, "lookup_key".toList, by decide, by decide, ⟨_, .tail _ (.head _)⟩,
    ⟨_, .tail _ (.tail _ (.head _))⟩⟩

example : isCfg cfgGood = true ∧ ¬Ambiguous cfgGood := by
  have hc : isCfg cfgGood = true := by decide
  have hw : Value.WF (.map cfgGood) := by simp [Value.WF, Value.WFEntries, Value.WFList, cfgGood, Value.equals]
  refine ⟨hc, (C39_ambiguous cenv (fun _ => rfl) [] cfgGood hw hc).1 ?_⟩
  exact ⟨_, rfl⟩

/-! ### C67 -/

/-- C67: a configuration that is accepted is the one that the file describes. -/
theorem C67_described (E : CfgEnv) (hE : ∀ x, E.toStr (.str x) = x) (path : Str) (es : Entries)
    (hw : Value.WF (.map es)) (c : Cfg) (h : newCfg E path (.value (.map es)) = .ok c) :
    DescribesCfg E.lookupEnv (dir path) path es c := by
  unfold newCfg at h
  by_cases hc : isCfg es = true
  · simp only [hc, if_true] at h
    exact createConfig_describes hE path hw hc c h
  · simp only [hc] at h; cases h

/-- C67: without a file there are the built-in defaults and hierarchy. -/
theorem C67_missing (E : CfgEnv) (path : Str) : ∃ c, newCfg E path .missing = .ok c ∧
    BuiltIn E.lookupEnv (dir path) c.defaults ∧ c.hierarchy = builtInHierarchy (dir path) ∧ c.defaultHierarchy = [] :=
  ⟨_, rfl, makeDefaultConfig_builtIn E _, rfl, rfl⟩

/-- C67: the entries have the order and number of the file. -/
theorem C67_order {root : Str} {vs : List Value} {cs : List Entry} (h : DescribesAll root vs cs) :
    vs.length = cs.length ∧ ∀ (i : Nat) (e : Entry), cs[i]? = some e → ∃ es n, vs[i]? = some (.map es) ∧
      (Value.str "name".toList, Value.str n) ∈ es ∧ Describes root n es e := by
  induction h with
  | nil => exact ⟨rfl, fun i e h => (nomatch h)⟩
  | cons hn hd _ ih =>
    refine ⟨by simp [ih.1], fun i e he => ?_⟩
    cases i with
    | zero =>
      simp only [List.getElem?_cons_zero, Option.some.injEq] at he
      subst he
      exact ⟨_, _, rfl, hn, hd⟩
    | succ i => exact ih.2 i e (by simpa using he)

example : ∃ c, newCfg cenv "/etc/hiera.yaml".toList (.value (.map cfgGood)) = .ok c ∧
    (c.hierarchy.map (·.name)) = ["a".toList, "b".toList] ∧ c.defaults.dataDir = "hiera".toList ∧
    (c.hierarchy.map (·.locations)) = [some [.path "a.yaml".toList [] false],
      some [.path "x".toList [] false, .path "%{y}".toList [] false]] := ⟨_, rfl, by decide, by decide, by decide⟩

/-! ### C40 -/

/-- C40: with plain variables, a resolved entry has its own settings with the variables replaced, and otherwise those of
the defaults, and otherwise the built-in ones; the state does not change. -/
theorem C40_resolved (E : Env) (n : Nat) (st : St) (ho : st.on = none) (hp : PlainScope st.v.ic.scope.get)
    (d : Option Entry) (e e' : Entry) (h : ResolvedAs E st.v.ic.scope.get d e e') :
    Entry.resolve E (eval E (n + 1)) d e st = some (.ok e', st) :=
  resolve_as ho hp h

/-- C40: nothing of the defaults matters but the settings that the entry does not have. -/
theorem C40_exactly (E : Env) (rec : Rec) (d d' e : Entry) (hf : e.function = none → d.function = d'.function)
    (hd : e.dataDir = [] → d.dataDir = d'.dataDir) (hp : e.pluginDir = [] → d.pluginDir = d'.pluginDir)
    (ho : e.options = none → d.options = d'.options) :
    Entry.resolve E rec (some d) e = Entry.resolve E rec (some d') e := by
  have h1 : ∀ e1 : Entry, (e1.function = none → e.function = none) →
      resolveFunction E rec (some d) e1 = resolveFunction E rec (some d') e1 := by
    intro e1 h
    unfold resolveFunction
    cases hfe : e1.function with
    | none => simp only [hf (h hfe)]
    | some f => rfl
  have hr1 : ∀ (e1 d1 : Entry), Returns (resolveFunction E rec (some d1) e1) (fun r => r.function ≠ none ∧
      r.dataDir = e1.dataDir ∧ r.pluginDir = e1.pluginDir ∧ r.options = e1.options) := by
    intro e1 d1
    unfold resolveFunction
    cases e1.function with
    | none =>
      simp only
      cases d1.function with
      | none => exact Returns.panic _
      | some f => exact Returns.pure ⟨by simp, rfl, rfl, rfl⟩
    | some f => exact Returns.bind (Returns.trivial _) (fun _ _ => Returns.pure ⟨by simp, rfl, rfl, rfl⟩)
  unfold Entry.resolve
  rw [h1 e id]
  refine bind_congr_of (hr1 e d') (fun e1 he1 => ?_)
  have h2 : resolveDataDir E rec (some d) e1 = resolveDataDir E rec (some d') e1 := by
    unfold resolveDataDir
    rw [h1 e1 (fun h => absurd h he1.1)]
    refine bind_congr_of (hr1 e1 d') (fun e2 he2 => ?_)
    by_cases h0 : e2.dataDir = []
    · rw [if_pos h0, if_pos h0]
      simp only
      rw [hd (by rw [← he1.2.1, ← he2.2.1]; exact h0)]
    · rw [if_neg h0, if_neg h0]
  have hr2 : Returns (resolveDataDir E rec (some d') e1) (fun r => r.pluginDir = e1.pluginDir ∧ r.options = e1.options) := by
    unfold resolveDataDir
    refine Returns.bind (hr1 e1 d') (fun e2 he2 => ?_)
    by_cases h0 : e2.dataDir = []
    · rw [if_pos h0]; exact Returns.pure ⟨he2.2.2.1, he2.2.2.2⟩
    · rw [if_neg h0]; exact Returns.bind (Returns.trivial _) (fun _ _ => Returns.pure ⟨he2.2.2.1, he2.2.2.2⟩)
  rw [h2]
  refine bind_congr_of hr2 (fun e2 he2 => ?_)
  have h3 : resolvePluginDir E rec (some d) e2 = resolvePluginDir E rec (some d') e2 := by
    have : pluginDirOf E rec (some d) e2 = pluginDirOf E rec (some d') e2 := by
      unfold pluginDirOf
      by_cases h0 : e2.pluginDir = []
      · rw [if_pos h0, if_pos h0]
        simp only
        rw [hp (by rw [← he1.2.2.1, ← he2.1]; exact h0)]
      · rw [if_neg h0, if_neg h0]
    unfold resolvePluginDir
    rw [this]
  have hr3 : Returns (resolvePluginDir E rec (some d') e2) (fun r => r.options = e2.options) := by
    unfold resolvePluginDir
    exact Returns.bind (Returns.trivial _) (fun _ _ => Returns.pure rfl)
  rw [h3]
  refine bind_congr_of hr3 (fun e3 he3 => ?_)
  have h4 : resolveOptions E rec (some d) e3 = resolveOptions E rec (some d') e3 := by
    unfold resolveOptions
    cases hopt : e3.options with
    | none => simp only [ho (by rw [← he1.2.2.2, ← he2.2, ← he3]; exact hopt)]
    | some os => cases os <;> rfl
  rw [h4]

/-- C40: the settings that an entry does not have are those of the defaults, whatever the variables are. -/
theorem C40_inherited (E : Env) (rec : Rec) (d e e' : Entry) (st t : St)
    (h : Entry.resolve E rec (some d) e st = some (.ok e', t)) :
    (e.dataDir = [] → e'.dataDir = d.dataDir) ∧ (e.pluginDir = [] → e'.pluginDir = under e.root d.pluginDir) ∧
    (e.options = none → e'.options = some (d.options.getD [])) ∧
    (∀ k n, e.function = none → d.function = some (k, n) → hasMarker n = false → e'.function = some (k, n)) ∧
    e'.root = e.root ∧ e'.name = e.name ∧ e'.pluginFile = e.pluginFile := by
  have hr1 : ∀ (e1 : Entry), Returns (resolveFunction E rec (some d) e1) (fun r =>
      (e1.function = none → r.function = d.function) ∧
      (∀ k n, e1.function = some (k, n) → hasMarker n = false → r.function = some (k, n)) ∧
      r = { e1 with function := r.function }) := by
    intro e1
    unfold resolveFunction
    cases hf : e1.function with
    | none =>
      simp only
      cases hd : d.function with
      | none => exact Returns.panic _
      | some f => exact Returns.pure ⟨fun _ => rfl, fun _ _ h => (nomatch h), rfl⟩
    | some f =>
      obtain ⟨k, m⟩ := f
      simp only
      by_cases hm : hasMarker m = false
      · rw [interpCfg_plain E rec hm, M.pure_bind]
        exact Returns.pure ⟨fun h => (nomatch h), fun k' n' h _ => h, rfl⟩
      · refine Returns.bind (Returns.trivial _) (fun _ _ => Returns.pure ⟨fun h => (nomatch h), fun k' n' h hh => ?_, rfl⟩)
        cases h
        exact absurd hh hm
  have hr2 : ∀ e1 : Entry, Returns (resolveDataDir E rec (some d) e1) (fun r =>
      (e1.dataDir = [] → r.dataDir = d.dataDir) ∧
      (∀ k n, e1.function = some (k, n) → hasMarker n = false → r.function = some (k, n)) ∧
      r = { e1 with function := r.function, dataDir := r.dataDir }) := by
    intro e1
    unfold resolveDataDir
    refine Returns.bind (hr1 e1) (fun e2 he2 => ?_)
    have hdd : e2.dataDir = e1.dataDir := by rw [he2.2.2]
    by_cases h0 : e2.dataDir = []
    · rw [if_pos h0]
      refine Returns.pure ⟨fun _ => rfl, he2.2.1, ?_⟩
      rw [he2.2.2]
    · rw [if_neg h0]
      refine Returns.bind (Returns.trivial _) (fun _ _ => Returns.pure ⟨fun hx => absurd (hdd.trans hx) h0, he2.2.1, ?_⟩)
      rw [he2.2.2]
  have hr3 : ∀ e1 : Entry, Returns (resolvePluginDir E rec (some d) e1) (fun r =>
      (e1.pluginDir = [] → r.pluginDir = under e1.root d.pluginDir) ∧ r = { e1 with pluginDir := r.pluginDir }) := by
    intro e1
    unfold resolvePluginDir
    have : Returns (pluginDirOf E rec (some d) e1) (fun p => e1.pluginDir = [] → p = d.pluginDir) := by
      unfold pluginDirOf
      by_cases h0 : e1.pluginDir = []
      · rw [if_pos h0]; exact Returns.pure (fun _ => rfl)
      · rw [if_neg h0]; exact fun _ _ _ _ hx => absurd hx h0
    refine Returns.bind this (fun p hp => Returns.pure ⟨fun hx => ?_, rfl⟩)
    rw [hp hx]
    rfl
  have hr4 : ∀ e1 : Entry, Returns (resolveOptions E rec (some d) e1) (fun r =>
      (e1.options = none → r.options = some (d.options.getD [])) ∧ r = { e1 with options := r.options }) := by
    intro e1
    unfold resolveOptions
    cases hopt : e1.options with
    | none => exact Returns.pure ⟨fun _ => rfl, rfl⟩
    | some os =>
      cases os with
      | nil => exact Returns.pure ⟨fun h => (nomatch h), rfl⟩
      | cons o os =>
        refine Returns.bind (Returns.trivial _) (fun r _ => ?_)
        cases r with
        | none => exact Returns.panic _
        | some r => cases r <;> first | exact Returns.panic _ | exact Returns.pure ⟨fun h => (nomatch h), rfl⟩
  have hr5 : ∀ e1 : Entry, Returns (resolveLocations E rec e1) (fun r => r = { e1 with locations := r.locations }) := by
    intro e1
    unfold resolveLocations
    cases e1.locations with
    | none => exact Returns.pure rfl
    | some ls => exact Returns.bind (Returns.trivial _) (fun _ _ => Returns.pure rfl)
  have key : Returns (Entry.resolve E rec (some d) e) (fun e' =>
      (e.dataDir = [] → e'.dataDir = d.dataDir) ∧ (e.pluginDir = [] → e'.pluginDir = under e.root d.pluginDir) ∧
      (e.options = none → e'.options = some (d.options.getD [])) ∧
      (∀ k n, e.function = none → d.function = some (k, n) → hasMarker n = false → e'.function = some (k, n)) ∧
      e'.root = e.root ∧ e'.name = e.name ∧ e'.pluginFile = e.pluginFile) := by
    unfold Entry.resolve
    refine Returns.bind (hr1 e) (fun e1 h1 => Returns.bind (hr2 e1) (fun e2 h2 => Returns.bind (hr3 e2) (fun e3 h3 =>
      Returns.bind (hr4 e3) (fun e4 h4 => ?_))))
    intro s0 e5 t0 h5
    have h5 := hr5 e4 s0 e5 t0 h5
    obtain ⟨h11, h12, h13⟩ := h1
    obtain ⟨h21, h22, h23⟩ := h2
    obtain ⟨h31, h33⟩ := h3
    obtain ⟨h41, h43⟩ := h4
    have e1d : e1.dataDir = e.dataDir ∧ e1.pluginDir = e.pluginDir ∧ e1.options = e.options ∧ e1.root = e.root ∧
        e1.name = e.name ∧ e1.pluginFile = e.pluginFile := by rw [h13]; exact ⟨rfl, rfl, rfl, rfl, rfl, rfl⟩
    have e2d : e2.pluginDir = e1.pluginDir ∧ e2.options = e1.options ∧ e2.root = e1.root ∧
        e2.name = e1.name ∧ e2.pluginFile = e1.pluginFile := by rw [h23]; exact ⟨rfl, rfl, rfl, rfl, rfl⟩
    have e3d : e3.dataDir = e2.dataDir ∧ e3.function = e2.function ∧ e3.options = e2.options ∧ e3.root = e2.root ∧
        e3.name = e2.name ∧ e3.pluginFile = e2.pluginFile := by rw [h33]; exact ⟨rfl, rfl, rfl, rfl, rfl, rfl⟩
    have e4d : e4.dataDir = e3.dataDir ∧ e4.function = e3.function ∧ e4.pluginDir = e3.pluginDir ∧ e4.root = e3.root ∧
        e4.name = e3.name ∧ e4.pluginFile = e3.pluginFile := by rw [h43]; exact ⟨rfl, rfl, rfl, rfl, rfl, rfl⟩
    have e5d : e5.dataDir = e4.dataDir ∧ e5.function = e4.function ∧ e5.pluginDir = e4.pluginDir ∧ e5.options = e4.options ∧
        e5.root = e4.root ∧ e5.name = e4.name ∧ e5.pluginFile = e4.pluginFile := by
      rw [h5]; exact ⟨rfl, rfl, rfl, rfl, rfl, rfl, rfl⟩
    refine ⟨fun hx => ?_, fun hx => ?_, fun hx => ?_, fun k m hx hy hz => ?_, ?_, ?_, ?_⟩
    · rw [e5d.1, e4d.1, e3d.1, h21 (e1d.1.trans hx)]
    · rw [e5d.2.2.1, e4d.2.2.1, h31 ((e2d.1.trans e1d.2.1).trans hx), e2d.2.2.1, e1d.2.2.2.1]
    · rw [e5d.2.2.2.1, h41 (((e3d.2.2.1.trans e2d.2.1).trans e1d.2.2.1).trans hx)]
    · rw [e5d.2.1, e4d.2.1, e3d.2.1, h22 k m ((h11 hx).trans hy) hz]
    · rw [e5d.2.2.2.2.1, e4d.2.2.2.1, e3d.2.2.2.1, e2d.2.2.1, e1d.2.2.2.1]
    · rw [e5d.2.2.2.2.2.1, e4d.2.2.2.2.1, e3d.2.2.2.2.1, e2d.2.2.2.1, e1d.2.2.2.2.1]
    · rw [e5d.2.2.2.2.2.2, e4d.2.2.2.2.2, e3d.2.2.2.2.2, e2d.2.2.2.2, e1d.2.2.2.2.2]
  exact key _ _ _ h

/-- A world with a list of zones and a file for one of them. -/
private def zoned : Env where
  top := .config
  stat := fun p => p = "/etc/hiera/b.yaml".toList
  glob := fun p => if p = "/etc/hiera/*.yaml".toList then ["/etc/hiera/b.yaml".toList, "/etc/hiera/c.yaml".toList] else []

private def zones : List (Value × Value) := [(s "zones", .arr [s "a", s "b"]), (s "n", s "x"), (s "dir", s "hiera")]

private def defs : Entry :=
  { root := "/etc".toList, dataDir := "hiera".toList, pluginDir := "/p".toList, function := some (.lookupKey, "f".toList),
    options := some [(s "o", .int 1)] }

private def own : Entry :=
  { root := "/etc".toList, dataDir := "%{dir}".toList, function := some (.dataHash, "%{n}_data".toList), name := "e".toList,
    locations := some [.mapped "zones".toList "z".toList "%{z}.yaml".toList, .path "%{zones.0}/%{none}".toList [] false,
      .glob "*.yaml".toList, .uri "http://%{n}".toList [], .mapped "n.x".toList "z".toList "%{z}".toList] }

private theorem zones_plain : PlainScope (Scope.map zones).get := by
  intro k v h
  obtain ⟨e, hm, _, rfl⟩ := Entries.get_mem h
  have nm : ∀ {x : String}, hasMarker x.toList = false → ¬Marked x.toList := fun hx hm => by
    rw [(hasMarker_iff _).2 hm] at hx; cases hx
  simp only [zones, List.mem_cons, List.not_mem_nil, or_false] at hm
  rcases hm with rfl | rfl | rfl
  · exact .arr (.cons (.str (nm (by decide))) (.cons (.str (nm (by decide))) .nil))
  · exact .str (nm (by decide))
  · exact .str (nm (by decide))

private def got : List Loc :=
  [.path "%{z}.yaml".toList "/etc/hiera/a.yaml".toList false, .path "%{z}.yaml".toList "/etc/hiera/b.yaml".toList true,
   .path "%{zones.0}/%{none}".toList "/etc/hiera/a".toList false, .path "*.yaml".toList "/etc/hiera/b.yaml".toList true,
   .path "*.yaml".toList "/etc/hiera/c.yaml".toList true, .uri "http://%{n}".toList "http://x".toList]

private theorem own_located : LocatedAll zoned (Scope.map zones).get "/etc/hiera".toList
    [.mapped "zones".toList "z".toList "%{z}.yaml".toList, .path "%{zones.0}/%{none}".toList [] false,
      .glob "*.yaml".toList, .uri "http://%{n}".toList [], .mapped "n.x".toList "z".toList "%{z}".toList] got := by
  refine .cons (rs := [_, _]) (.mapped (vs := [s "a", s "b"]) rfl rfl (.cons (t := "a.yaml".toList) ?_ (.cons (t := "b.yaml".toList) ?_ .nil)))
    (.cons (rs := [_]) (.path (t := "a/".toList) ?_) (.cons (rs := [_, _]) (.glob (t := "*.yaml".toList) ?_)
      (.cons (rs := [_]) (.uri ?_) (.cons (rs := []) (.unmapped rfl ?_ ?_) .nil))))
  · exact replacedS_of (by decide +kernel)
  · exact replacedS_of (by decide +kernel)
  · exact replacedS_of (by decide +kernel)
  · exact replacedS_of (by decide +kernel)
  · exact replacedS_of (by decide +kernel)
  · intro vs h; cases h
  · intro vs h; cases h

example : ResolvedAs zoned (Scope.map zones).get (some defs) own
    { root := "/etc".toList, dataDir := "hiera".toList, pluginDir := "/p".toList, function := some (.dataHash, "x_data".toList),
      name := "e".toList, options := some [(s "o", .int 1)], locations := some got } where
  same := ⟨rfl, rfl, rfl⟩
  function := ⟨_, rfl, .own (n' := "x_data".toList) rfl (replacedS_of (by decide +kernel)) (replacedS_of (by decide +kernel))⟩
  dataDir := .own (by decide) (replacedS_of (by decide +kernel))
  pluginDir := ⟨_, .inherited rfl rfl, by decide⟩
  options := ⟨_, rfl, .inherited rfl rfl rfl⟩
  locations := by
    intro ls hls
    cases hls
    exact ⟨_, rfl, own_located⟩
  noLocations := fun h => (nomatch h)

/-! ### C41 -/

/-- C41: with plain variables, the locations of an entry become what each of them becomes, in order, under the data
directory of the entry; the scope and everything else is as before afterwards. -/
theorem C41_locations (E : Env) (n : Nat) (st : St) (ho : st.on = none) (hp : PlainScope st.v.ic.scope.get) (e : Entry)
    (ls rs : List Loc) (hl : e.locations = some ls)
    (h : LocatedAll E st.v.ic.scope.get (under e.root e.dataDir) ls rs) :
    resolveLocations E (eval E (n + 1)) e st = some (.ok { e with locations := some rs }, st) := by
  unfold resolveLocations
  rw [hl]
  simp only
  rw [bind_def]
  have := resolveLocs_locatedAll E n ho hp h
  unfold under at this
  rw [this]
  rfl

/-- C41: every location becomes something (unless a template calls a function or has a bad key), so that an entry has as
many groups of paths as it has locations. -/
theorem C41_count (E : Env) (get : Str → Option Value) (dd : Str) (ls rs : List Loc) (h : LocatedAll E get dd ls rs) :
    ∃ gs : List (List Loc), gs.length = ls.length ∧ gs.flatten = rs ∧
      ∀ (i : Nat) (l : Loc), ls[i]? = some l → ∃ g, gs[i]? = some g ∧ LocatedAt E get dd l g := by
  induction h with
  | nil => exact ⟨[], rfl, rfl, fun i l h => (nomatch h)⟩
  | cons h _ ih =>
    rename_i rs0 _ _
    obtain ⟨gs, h1, h2, h3⟩ := ih
    refine ⟨rs0 :: gs, by simp [h1], by simp [h2], fun i l hl => ?_⟩
    cases i with
    | zero =>
      simp only [List.getElem?_cons_zero, Option.some.injEq] at hl
      subst hl
      exact ⟨_, rfl, h⟩
    | succ i => exact h3 i l (by simpa using hl)

/-- C41: one path for each element of the list that a mapped variable is. -/
theorem C41_mapped (E : Env) (get : Str → Option Value) (key template dd : Str) (vs : List Value) (ls : List Loc)
    (h : MappedTo E get key template dd vs ls) : ls.length = vs.length ∧
    ∀ (i : Nat) (v : Value), vs[i]? = some v → ∃ t, ReplacedS E.toStr (withVariable get key v) template t ∧
      ls[i]? = some (.path template (join dd t) (E.stat (join dd t))) := by
  induction h with
  | nil => exact ⟨rfl, fun i v h => (nomatch h)⟩
  | cons h _ ih =>
    refine ⟨by simp [ih.1], fun i v hv => ?_⟩
    cases i with
    | zero =>
      simp only [List.getElem?_cons_zero, Option.some.injEq] at hv
      subst hv
      exact ⟨_, h, rfl⟩
    | succ i => exact ih.2 i v (by simpa using hv)

example : ((resolveLocations zoned (eval zoned 1) { own with dataDir := "hiera".toList } (World.st zones)).map
    (fun o => match o.1 with | .ok e => e.locations | .panic _ => none)) = some (some got) := by decide +kernel

end Hiera
