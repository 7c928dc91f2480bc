/- Lookups in an ordinary set-up with modules (`Spec/Modular.lean`): from the configuration files and the data files to the answer. -/
import Verif.Lemmas.Modular
import Verif.Props.Termination

set_option autoImplicit false

namespace Hiera

open Value Spec World

section
variable {E : Env} {sc : Scope} {ls : List Level} {md : Option Module} {root st : Str} {opts : Entries} {site : Str → Option (Str × List Level)}

/-- What the values mean has no expressions. -/
theorem mean_config (hq : ModuleQuestion E sc ls md root opts st) {ls' : List Level} (hvl : LevelsMean E sc root ls ls') :
    ∀ w ∈ valuesOf ls' root, Unmarked w ∧ WF w := mean_values (fun _ hv => valuesOf_WF hq.setup hv) hvl

theorem mean_module (hq : ModuleQuestion E sc ls md root opts st) {ms' : List Level} (hvm : LevelsMean E sc root (levelsOf md) ms') :
    ∀ w ∈ valuesOf ms' root, Unmarked w ∧ WF w := mean_values (fun _ hv => module_WF hq hv) hvm

theorem both_clean (hq : ModuleQuestion E sc ls md root opts st) (stv : Strategy) {ls' ms' : List Level}
    (hvl : LevelsMean E sc root ls ls') (hvm : LevelsMean E sc root (levelsOf md) ms') : CleanO (fun s => ¬Marked s) (bothValue stv ls' ms' root) := by
  refine outcome_clean stv (fun v hv => ?_)
  rw [valuesOf_sides] at hv
  rcases List.mem_append.1 hv with hv | hv
  · exact outcome_clean stv (ls := ls') (key := root) (fun w hw => (mean_config hq hvl w hw).1) v (by simpa using hv)
  · exact outcome_clean stv (ls := ms') (key := root) (fun w hw => (mean_module hq hvm w hw).1) v (by simpa using hv)

theorem lookup_settled (hq : ModuleQuestion E sc ls md root opts st) (hsite : SiteHas E ls md site) {stv : Strategy}
    (hst : getStrategy st none = .ok stv) {ls' ms' : List Level} (hvl : LevelsMean E sc root ls ls') (hvm : LevelsMean E sc root (levelsOf md) ms')
    (src : Str) (fs : List Str) {s : St} (hs : Settled E sc site ⟨sc, .call⟩ s) :
    ∃ t, (eval E 3).lookup ⟨src, .name root :: fs.map .name⟩ opts s = some (.ok ((bothValue stv ls' ms' root).bind (fieldOf fs)), t) ∧
      Settled E sc site ⟨sc, .call⟩ t := by
  obtain ⟨a, t, h1, hb, ht⟩ := mux_settled hq 0 hsite hst hvl hvm s hs
  subst hb
  show ∃ t, lookup E (eval E 2) _ opts s = _ ∧ _
  unfold lookup
  rw [if_neg (show (⟨src, .name root :: fs.map .name⟩ : Key).root ≠ _ from hq.ordinary), hq.top.1,
    bind_ok (show callLk E (eval E 2) .mux opts (Key.root ⟨src, .name root :: fs.map .name⟩) s = _ from h1)]
  cases hv : bothValue stv ls' ms' root with
  | none => exact ⟨t, rfl, ht⟩
  | some v =>
    dsimp only
    unfold forData
    rw [bind_ok (show view t = some (.ok t.v, t) from rfl), if_neg (by rw [(show t.v.ic.mode = .top ∧ _ from ht.within).1]; simp)]
    rw [interpolate_plain E _ true (plain_of_unmarked (unmarked_iff (both_clean hq stv hvl hvm v hv))), M.pure_bind]
    unfold withCopy
    rw [ht.on]
    dsimp only [explForData]
    rw [dig_quiet _ v _ rfl]
    have hd : (⟨src, .name root :: fs.map .name⟩ : Key).digPure v = fieldOf fs v := digParts_fields fs v
    rw [hd]
    refine ⟨_, rfl, ⟨rfl, ht.scope, ht.coh, ht.within, ht.configs, ht.parsed, ht.locked⟩⟩

theorem both_mergeable {vs ws : List Value} (h : Mergeable st vs) {a b : Option Value} (ha : Textbook st vs a) (hb : Textbook st ws b) :
    Mergeable st (a.toList ++ b.toList) := by
  have hash : ∀ {vs : List Value} {v : Value} {st : Str}, st = "hash".toList → Textbook st vs (some v) → ∃ es, v = .map es := by
    intro vs v st e t
    cases t with
    | hash => exact ⟨_, rfl⟩
    | first => cases e
    | unique => cases e
    | uniqueOne => cases e
    | deep => cases e
  have uniq : ∀ {vs : List Value} {v : Value} {st : Str}, st = "unique".toList → Textbook st vs (some v) →
      ∃ es, v = .arr es ∧ (∀ e ∈ es, ∀ xs, e ≠ .arr xs) ∧ es.Pairwise (fun a b => equals a b = false) := by
    intro vs v st e t
    cases t with
    | hash => cases e
    | first => cases e
    | unique hl hn =>
      rw [leavesL_eq hl] at hn
      exact ⟨_, rfl, fun x hx => flatten_no_arr _ x (hn.1.subset hx), hn.2.1⟩
    | uniqueOne h1 h2 => exact ⟨_, rfl, h1, h2⟩
    | deep => cases e
  refine ⟨h.1, fun e v hv => ?_, fun e v hv => ?_⟩
  · rcases List.mem_append.1 hv with hv | hv
    · cases Option.mem_toList.1 hv; exact hash e ha
    · cases Option.mem_toList.1 hv; exact hash e hb
  · cases a with
    | some x =>
      cases b with
      | none => cases hv; exact uniq e ha
      | some y => cases hv
    | none =>
      cases b with
      | none => cases hv
      | some y => cases hv; exact uniq e hb

theorem both_textbook (hq : ModuleQuestion E sc ls md root opts st) {stv : Strategy} (hst : getStrategy st none = .ok stv)
    {ls' ms' : List Level} (hvl : LevelsMean E sc root ls ls') (hvm : LevelsMean E sc root (levelsOf md) ms')
    (h1 : Mergeable st (valuesOf ls' root)) (h2 : Mergeable st (valuesOf ms' root)) :
    ModuleAnswer st (valuesOf ls' root) (valuesOf ms' root) (bothValue stv ls' ms' root) := by
  have wa : ∀ v ∈ valuesOf ls' root, WF v := fun v hv => (mean_config hq hvl v hv).2
  have wb : ∀ v ∈ valuesOf ms' root, WF v := fun v hv => (mean_module hq hvm v hv).2
  have ha := (outcome_textbook wa hst h1).1
  have hb := (outcome_textbook wb hst h2).1
  refine ⟨_, _, ha, hb, ?_⟩
  have hm := both_mergeable h1 ha hb
  rw [← valuesOf_sides root] at hm ⊢
  refine (outcome_textbook (fun v hv => ?_) hst hm).1
  rw [valuesOf_sides] at hv
  rcases List.mem_append.1 hv with hv | hv
  · exact textbook_WF wa ha v (by simpa using hv)
  · exact textbook_WF wb hb v (by simpa using hv)

theorem fresh_settled {s : St} (hs : Session E s) (hl : s.v.locked = []) : Settled E sc site ⟨sc, .call⟩ (nextInvocation s sc none) :=
  ⟨rfl, rfl, (by intro p n loc h _ ha; cases ha), ⟨rfl, rfl⟩, (fun p rc h => by cases h), fun p c hc => C60_as_parsed E hs p c hc, hl⟩

/-- The configurations that there are. -/
def sitesOf (E : Env) (ls : List Level) (mods : Str → Option Module) (p : Str) : Option (Str × List Level) :=
  if p = E.configPath then some ([], ls) else (mods p).map (fun m => (m.name, m.levels))

theorem sites_have (hq : ModuleQuestion E sc ls md root opts st) {mods : Str → Option Module} (hm : ∀ m, md = some m → mods m.config = some m) :
    SiteHas E ls md (sitesOf E ls mods) := by
  refine ⟨if_pos rfl, fun m h => ?_⟩
  have hne : m.config ≠ E.configPath := by
    rcases module_finds hq with ⟨e, _⟩ | ⟨m', e, _, _, hne, _⟩
    · rw [e] at h; cases h
    · rw [e] at h; cases h; exact hne
  unfold sitesOf
  rw [if_neg hne, hm m h]
  rfl

theorem strategy_named {st : Str} (h : st ∈ ["first".toList, "unique".toList, "hash".toList, "deep".toList]) : ∃ stv, getStrategy st none = .ok stv :=
  mergeable_strategy (vs := []) ⟨h, by simp, by simp⟩

theorem key_of {root : Str} {fs : List Str} (hr : KeyPart root) (hf : ∀ f ∈ fs, KeyPart f) :
    newKey (joinDots (root :: fs)) = .ok ⟨joinDots (root :: fs), .name root :: fs.map .name⟩ :=
  segments_key (by simp) (fun y hy => by
    rcases List.mem_cons.1 hy with rfl | hy
    · exact hr
    · exact hf y hy)

theorem looked_settled {mods : Str → Option Module} {s t : St} (h : Looked E sc ls mods s t) :
    Settled E sc (sitesOf E ls mods) ⟨sc, .call⟩ s → Settled E sc (sitesOf E ls mods) ⟨sc, .call⟩ t := by
  induction h with
  | nothing => exact id
  | @more t u md root opts st fs k n r _ hq hm hst hf hk hl ih =>
    intro hs
    obtain ⟨stv, hst⟩ := strategy_named hst
    have all : ∀ vs : List Value, (∀ v ∈ vs, ∃ w, Fills E sc v w) → ∃ ws, List.Forall₂ (Fills E sc) vs ws := by
      intro vs
      induction vs with
      | nil => exact fun _ => ⟨[], .nil⟩
      | cons v vs ih' =>
        intro h
        obtain ⟨w, hw⟩ := h v (List.mem_cons_self ..)
        obtain ⟨ws, hws⟩ := ih' (fun x hx => h x (List.mem_cons_of_mem _ hx))
        exact ⟨w :: ws, .cons hw hws⟩
    obtain ⟨_, hv⟩ := all (valuesOf ls root) (fun v hv => hq.values v (by unfold valuesOf at hv ⊢; rw [List.filterMap_append]; exact List.mem_append_left _ hv))
    obtain ⟨_, hw⟩ := all (valuesOf (levelsOf md) root) (fun v hv => hq.values v (of_module hq hv))
    obtain ⟨_, hvl, _⟩ := levels_mean hv
    obtain ⟨_, hvm, _⟩ := levels_mean hw
    obtain ⟨u', h1, h2⟩ := lookup_settled hq (sites_have hq hm) hst hvl hvm (joinDots (root :: fs)) fs (ih hs)
    rw [key_of hq.part hf] at hk
    cases hk
    have := C59_deterministic E n 3 _ opts t _ _ hl h1
    cases this
    exact h2

/-- C104: in an ordinary set-up with modules, the lookup of a key gives what the configuration has for it, merged, merged with what
the module has for it, merged, and so do lookups of parts of it. What they have are the values of the files with their variables filled in. -/
theorem C104_textbook {s : St} (hs : Session E s) (hl : s.v.locked = []) (hq : ModuleQuestion E sc ls md root opts st) {vs ws : List Value}
    (hv : List.Forall₂ (Fills E sc) (valuesOf ls root) vs) (hw : List.Forall₂ (Fills E sc) (valuesOf (levelsOf md) root) ws)
    (h1 : Mergeable st vs) (h2 : Mergeable st ws) {fs : List Str} (hf : ∀ f ∈ fs, KeyPart f) (ex : Option ExplOpts) :
    ∃ k v, newKey (joinDots (root :: fs)) = .ok k ∧ ModuleAnswer st vs ws v ∧
      Gives E (nextInvocation s sc ex) k opts (.ok (v.bind (fieldOf fs))) := by
  obtain ⟨stv, hst⟩ := mergeable_strategy h1
  obtain ⟨ls', hvl, rfl⟩ := levels_mean hv
  obtain ⟨ms', hvm, rfl⟩ := levels_mean hw
  refine ⟨_, _, key_of hq.part hf, both_textbook hq hst hvl hvm h1 h2, ?_⟩
  obtain ⟨t, ht, _⟩ := lookup_settled (site := sitesOf E ls (fun _ => md)) hq (sites_have hq (fun m h => h)) hst hvl hvm (joinDots (root :: fs)) fs
    (fresh_settled hs hl)
  cases ex with
  | none => exact ⟨3, t, ht⟩
  | some x =>
    have := (C27_explain E 3 ⟨joinDots (root :: fs), .name root :: fs.map .name⟩ opts (nextInvocation s sc none).v x).1
    refine gives_iff.2 ⟨3, ?_⟩
    refine Eq.trans this ?_
    show ((eval E 3).lookup _ opts (nextInvocation s sc none)).map Prod.fst = _
    rw [ht]
    rfl

/-- C104: and it does so after other lookups of keys of the configuration and of modules, whichever they were. -/
theorem C104_history {mods : Str → Option Module} {s t : St} (hs : Session E s) (hl : s.v.locked = [])
    (h : Looked E sc ls mods (nextInvocation s sc none) t) (hq : ModuleQuestion E sc ls md root opts st)
    (hm : ∀ m, md = some m → mods m.config = some m) {vs ws : List Value}
    (hv : List.Forall₂ (Fills E sc) (valuesOf ls root) vs) (hw : List.Forall₂ (Fills E sc) (valuesOf (levelsOf md) root) ws)
    (h1 : Mergeable st vs) (h2 : Mergeable st ws) {fs : List Str} (hf : ∀ f ∈ fs, KeyPart f) :
    ∃ k v, newKey (joinDots (root :: fs)) = .ok k ∧ ModuleAnswer st vs ws v ∧ Gives E t k opts (.ok (v.bind (fieldOf fs))) := by
  obtain ⟨stv, hst⟩ := mergeable_strategy h1
  obtain ⟨ls', hvl, rfl⟩ := levels_mean hv
  obtain ⟨ms', hvm, rfl⟩ := levels_mean hw
  obtain ⟨u, hu, _⟩ := lookup_settled hq (sites_have hq hm) hst hvl hvm (joinDots (root :: fs)) fs (looked_settled h (fresh_settled hs hl))
  exact ⟨_, _, key_of hq.part hf, both_textbook hq hst hvl hvm h1 h2, 3, u, hu⟩

end

namespace Modular104

def mainData : Entries := [(s "app::users", .map [(s "eve", .map [(s "uid", .int 9)])]), (s "App::users", .map [(s "eve", .map [(s "uid", .int 9)])])]

def appData : Entries := [
  (s "lookup_options", .map [(s "app::users", .map [(s "merge", s "deep")]), (s "App::users", .map [(s "merge", s "deep")])]),
  (s "app::users", .map [(s "eve", .map [(s "uid", .int 7), (s "home", s "/%{os}/eve")]), (s "adam", .map [(s "uid", .int 1)])]),
  (s "App::users", .map [(s "adam", .map [(s "uid", .int 1)])])]

def mainLevels : List Level := [⟨"common".toList, [.text "common.yaml".toList], some mainData⟩]

def appLevels : List Level := [
  ⟨"os".toList, [.text "os/".toList, .var "os".toList [], .text ".yaml".toList], none⟩,
  ⟨"defaults".toList, [.text "defaults.yaml".toList], some appData⟩]

/-- A configuration, and two directories of modules, with the module in the second one. -/
def world : Env :=
  { mk (configOf mainLevels) [("/h/data/common.yaml".toList, .map mainData), ("/n/App/hiera.yaml".toList, configOf appLevels),
      ("/n/App/data/defaults.yaml".toList, .map appData)] with
    top := .mux
    muxFns := some [.config, .module]
    modulePath := some ["/m".toList, "/n".toList]
    readDir := fun p => if p = "/m".toList then .entries [("other".toList, true)] else if p = "/n".toList then
      .entries [("README".toList, false), ("App".toList, true)] else .missing
    lstat := fun p => if p = "/n/App/hiera.yaml".toList then .file else .missing }

def scope : Scope := .map [(s "os", s "linux")]

theorem plainScope (l : Level) (ls : List Level) (_ : l ∈ ls) (x : Str) (fs : List Str) (_ : PathPiece.var x fs ∈ l.path) (v : Value) (hv : scope.get x = some v) :
    Unmarked v := by
  have : ∀ e ∈ ([(s "os", s "linux")] : Entries), marked e.2 = false := by decide
  obtain ⟨e, he, _, rfl⟩ := Entries.get_mem (es := [(s "os", s "linux")]) hv
  exact unmarked_of_marked (this e he)

theorem mainOrdinary : Ordinary world scope mainLevels where
  config := rfl
  named := by decide
  distinct := by decide
  paths := by
    intro l hl
    cases List.mem_singleton.1 hl
    refine ⟨by decide, fun p hp => ?_⟩
    cases List.mem_singleton.1 hp
    show '%' ∉ _; decide
  vars := fun l => plainScope l _
  dataDir := fun h => by have := (hasMarker_iff _).2 h; revert this; decide
  pluginDir := fun h => by have := (hasMarker_iff _).2 h; revert this; decide
  there := by
    intro l hl es he
    cases List.mem_singleton.1 hl
    cases he
    have hf : Level.file world scope ⟨"common".toList, [.text "common.yaml".toList], some mainData⟩ = "/h/data/common.yaml".toList := by decide +kernel
    rw [hf]
    refine ⟨by decide +kernel, by rfl, ?_⟩
    simp [WF_map, mainData, s, UniqueKeys]
  absent := by
    have : ∀ l ∈ mainLevels, l.data.isNone = true → world.stat (l.file world scope) = false := by decide +kernel
    exact fun l hl h => this l hl (by rw [h]; rfl)

theorem appOrdinary : Ordinary (atFile world "/n/App/hiera.yaml".toList) scope appLevels where
  config := rfl
  named := by decide
  distinct := by decide
  paths := by
    intro l hl
    simp only [appLevels, List.mem_cons, List.not_mem_nil, or_false] at hl
    rcases hl with rfl | rfl
    · refine ⟨by decide, fun p hp => ?_⟩
      simp only [List.mem_cons, List.not_mem_nil, or_false] at hp
      rcases hp with rfl | rfl | rfl
      · show '%' ∉ _; decide
      · exact ⟨⟨by decide, by decide⟩, fun f hf => nomatch hf⟩
      · show '%' ∉ _; decide
    · refine ⟨by decide, fun p hp => ?_⟩
      cases List.mem_singleton.1 hp
      show '%' ∉ _; decide
  vars := fun l => plainScope l _
  dataDir := fun h => by have := (hasMarker_iff _).2 h; revert this; decide
  pluginDir := fun h => by have := (hasMarker_iff _).2 h; revert this; decide
  there := by
    intro l hl es he
    simp only [appLevels, List.mem_cons, List.not_mem_nil, or_false] at hl
    rcases hl with rfl | rfl
    · cases he
    · cases he
      have hf : Level.file (atFile world "/n/App/hiera.yaml".toList) scope ⟨"defaults".toList, [.text "defaults.yaml".toList], some appData⟩ =
        "/n/App/data/defaults.yaml".toList := by decide +kernel
      rw [hf]
      refine ⟨by decide +kernel, by rfl, ?_⟩
      simp [WF_map, appData, s, UniqueKeys]
  absent := by
    have : ∀ l ∈ appLevels, l.data.isNone = true → world.stat (l.file (atFile world "/n/App/hiera.yaml".toList) scope) = false := by decide +kernel
    exact fun l hl h => this l hl (by rw [h]; rfl)

def app : Module := ⟨"app".toList, "/n/App/hiera.yaml".toList, appLevels⟩

theorem belongs (n key : Str) (hk : beforeColons [] key = some n) (hn : n ≠ []) (hl : toLower n = "app".toList) : Belongs world scope key (some app) := by
  unfold app
  rw [← hl]
  refine .module (n := n) (d := "/n".toList) (pre := ["/m".toList]) (post := []) ?_ hn rfl ?_ ?_ ?_ (by decide) appOrdinary
  · obtain ⟨m, h1, h2⟩ := (beforeColons_iff key [] n).1 hk
    exact h1 ▸ h2
  · intro e he
    cases List.mem_singleton.1 he
    refine ⟨fun es h => ?_, .inr ⟨_, rfl, fun dir hm hl' => ?_⟩⟩
    · cases h; decide
    · simp only [List.mem_singleton, Prod.mk.injEq, and_true] at hm
      subst hm
      rw [hl] at hl'
      exact absurd hl' (by decide)
  · intro es h
    cases h
    decide
  · exact ⟨_, "App".toList, rfl, by decide, by rw [hl]; decide, by decide +kernel, rfl⟩

/-- The users of the module, as they are written, and what they mean. -/
def usersText : Template := .map [
  ("eve".toList, .map [("uid".toList, .plain (.int 7)), ("home".toList, .text [.text "/".toList, .var "os".toList [], .text "/eve".toList])]),
  ("adam".toList, .plain (.map [(s "uid", .int 1)]))]

def users : Value := .map [(s "eve", .map [(s "uid", .int 7), (s "home", s "/linux/eve")]), (s "adam", .map [(s "uid", .int 1)])]

theorem usersFillIn {E : Env} (h : ∀ v, '%' ∉ E.render v) : Fills E scope usersText.written users := by
  refine .vars ?_ ?_ ?_ ?_ ?_
  · have h1 : NoPercent (.int 7) := by intro t ht; cases ht
    have h2 : NoPercent (.map [(s "uid", .int 1)]) := by
      intro t ht
      cases ht with
      | key hm ho => cases List.mem_singleton.1 hm; cases ho; decide
      | val hm ho => cases List.mem_singleton.1 hm; cases ho
    have h3 : Name "os".toList := ⟨by decide, by decide⟩
    have h4 : WF (.map [(s "uid", .int 1)]) := by simp [WF_map, s, UniqueKeys]
    simp [usersText, Template.Ok, OkE, DataPiece.Ok, h1, h2, h4]
    simpa using h3
  · intro x fs h
    simp [usersText, Template.uses, usesE] at h
  · intro x fs _ v hv
    obtain ⟨e, he, _, rfl⟩ := Entries.get_mem (es := [(s "os", s "linux")]) hv
    cases List.mem_singleton.1 he
    exact clean_str.2 (by decide)
  · intro v _
    exact h v
  · exact .map (.cons (.map (.cons .plain (.cons (.text (.text (.var (.text .nil)))) .nil))) (.cons .plain .nil))

theorem usersFill : Fills world scope usersText.written users := usersFillIn (fun _ => List.not_mem_nil)

theorem mainFills : List.Forall₂ (Fills world scope) (valuesOf mainLevels "app::users".toList) [.map [(s "eve", .map [(s "uid", .int 9)])]] := by
  have e : valuesOf mainLevels "app::users".toList = [.map [(s "eve", .map [(s "uid", .int 9)])]] := by decide +kernel
  rw [e]
  exact .cons (.plain (unmarked_of_marked (by decide +kernel))) .nil

theorem appFills : List.Forall₂ (Fills world scope) (valuesOf (levelsOf (some app)) "app::users".toList) [users] := by
  have e : valuesOf (levelsOf (some app)) "app::users".toList = [usersText.written] := by decide +kernel
  rw [e]
  exact .cons usersFill .nil

theorem mem_forall₂ {α β : Type} {R : α → β → Prop} {as : List α} {bs : List β} (h : List.Forall₂ R as bs) {a : α} (ha : a ∈ as) :
    ∃ b, b ∈ bs ∧ R a b := by
  induction h with
  | nil => cases ha
  | cons h1 _ ih =>
    rcases List.mem_cons.1 ha with rfl | ha
    · exact ⟨_, List.mem_cons_self .., h1⟩
    · obtain ⟨b, hb, hr⟩ := ih ha
      exact ⟨b, List.mem_cons_of_mem _ hb, hr⟩

/-- The users, merged deeply because the module says so. -/
theorem question : ModuleQuestion world scope mainLevels (some app) "app::users".toList [] "deep".toList where
  setup := mainOrdinary
  top := ⟨rfl, rfl⟩
  belongs := belongs "app".toList _ (by decide) (by decide) (by decide)
  part := ⟨by unfold Unquoted; decide, by decide, alpha_not_int (by decide)⟩
  ordinary := by decide
  values := by
    intro v hv
    have e : valuesOf (mainLevels ++ levelsOf (some app)) "app::users".toList =
      valuesOf mainLevels "app::users".toList ++ valuesOf (levelsOf (some app)) "app::users".toList := by decide +kernel
    rw [e] at hv
    rcases List.mem_append.1 hv with hv | hv
    · obtain ⟨w, _, h⟩ := mem_forall₂ mainFills hv; exact ⟨w, h⟩
    · obtain ⟨w, _, h⟩ := mem_forall₂ appFills hv; exact ⟨w, h⟩
  options := by
    have : valuesOf (mainLevels ++ levelsOf (some app)) "lookup_options".toList =
      [.map [(s "app::users", .map [(s "merge", s "deep")]), (s "App::users", .map [(s "merge", s "deep")])]] := by decide +kernel
    rw [this]
    intro v hv
    cases List.mem_singleton.1 hv
    refine ⟨unmarked_of_marked (by decide +kernel), _, rfl, fun o ho => ?_⟩
    have e : Entries.getS [(s "app::users", .map [(s "merge", s "deep")]), (s "App::users", .map [(s "merge", s "deep")])] "app::users".toList =
      some (.map [(s "merge", s "deep")]) := by decide +kernel
    rw [e] at ho
    cases ho
    refine ⟨_, rfl, by decide +kernel, fun m hm => ?_⟩
    have e : Entries.getS [(s "merge", s "deep")] "merge".toList = some (s "deep") := by decide +kernel
    rw [e] at hm
    cases hm
    exact ⟨_, rfl⟩
  merge := .said rfl (by decide +kernel)

theorem mergeable (vs : List Value) : Mergeable "deep".toList vs := ⟨by decide, fun h => absurd h (by decide), fun h => absurd h (by decide)⟩

example : ∃ k v, newKey "app::users.eve".toList = .ok k ∧ ModuleAnswer "deep".toList [.map [(s "eve", .map [(s "uid", .int 9)])]] [users] v ∧
    Gives world (newInvocation scope none) k [] (.ok (v.bind (fieldOf ["eve".toList]))) :=
  C104_textbook (.start scope none) rfl question mainFills appFills (mergeable _) (mergeable _) (fs := ["eve".toList])
    (fun f hf => by cases List.mem_singleton.1 hf; exact ⟨by unfold Unquoted; decide, by decide, alpha_not_int (by decide)⟩) none

/-- A second lookup, after one. -/
example {r : Res (Option Value)} {t : St} {n : Nat} {k : Key} (hk : newKey "app::users".toList = .ok k)
    (h : (eval world n).lookup k [] (newInvocation scope none) = some (r, t)) :
    ∃ k v, newKey "app::users".toList = .ok k ∧ ModuleAnswer "deep".toList [.map [(s "eve", .map [(s "uid", .int 9)])]] [users] v ∧
      Gives world t k [] (.ok (v.bind (fieldOf []))) :=
  C104_history (mods := fun _ => some app) (.start scope none) rfl
    (.more (fs := []) .nothing question (fun m h => h) (by decide) (fun _ h => nomatch h) hk h) question (fun m h => h) mainFills appFills (mergeable _) (mergeable _)
    (fs := []) (fun _ h => nomatch h)

/-- The answer for `app::users`. -/
example : ((eval world 3).lookup ⟨"app::users".toList, [.name "app::users".toList]⟩ [] (newInvocation scope none)).map Prod.fst =
    some (.ok (some (.map [(s "eve", .map [(s "uid", .int 9), (s "home", s "/linux/eve")]), (s "adam", .map [(s "uid", .int 1)])]))) := by
  decide +kernel

end Modular104

/-- C104: the name of a module in a key may be in any case, and the data of the module is found, but its lookup options are heeded for
keys only that have it in lower case. Here the module says that the values are merged deeply, and they are not. -/
theorem C104_case : ∃ (E : Env) (sc : Scope) (ls : List Level) (m : Module),
    Ordinary E sc ls ∧ E.top = .mux ∧ E.muxFns = some [.config, .module] ∧ Belongs E sc "App::users".toList (some m) ∧
    (valuesOf m.levels "lookup_options".toList).findSome? (mergeIn "App::users".toList) = some (.str "deep".toList) ∧
    (∃ w ∈ valuesOf m.levels "App::users".toList, (fieldOf ["adam".toList] w).isSome = true) ∧
    ∀ r, Gives E (newInvocation sc none) ⟨"App::users".toList, [.name "App::users".toList]⟩ [] r →
      ∃ v, r = .ok (some v) ∧ valuesOf ls "App::users".toList = [v] ∧ fieldOf ["adam".toList] v = none := by
  refine ⟨Modular104.world, Modular104.scope, Modular104.mainLevels, Modular104.app, Modular104.mainOrdinary, rfl, rfl,
    Modular104.belongs "App".toList "App::users".toList (by decide) (by decide) (by decide), by decide +kernel, ⟨_, List.mem_singleton.2 rfl, by decide +kernel⟩, ?_⟩
  intro r ⟨n, t, h⟩
  have e : ((eval Modular104.world 3).lookup ⟨"App::users".toList, [.name "App::users".toList]⟩ [] (newInvocation Modular104.scope none)).map Prod.fst =
    some (.ok (some (.map [(s "eve", .map [(s "uid", .int 9)])]))) := by decide +kernel
  obtain ⟨⟨r', t'⟩, h', e'⟩ := Option.map_eq_some_iff.1 e
  have := C59_deterministic _ _ _ _ _ _ _ _ h h'
  cases this
  exact ⟨_, e', by decide +kernel, by decide +kernel⟩

end Hiera
