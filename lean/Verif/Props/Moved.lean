/- C111: levels may move from the configuration to a module, and back. -/
import Verif.Lemmas.Moved

set_option autoImplicit false

namespace Hiera
open Value Spec World

/-- The answer for a key of a module is the merge of what the configuration and the module give. -/
theorem module_both {E : Env} {sc : Scope} {ls : List Level} {md : Option Module} {root st : Str} {opts : Entries} {s : St} (hs : Session E s)
    (hl : s.v.locked = []) (hq : ModuleQuestion E sc ls md root opts st) {stv : Strategy} (hst : getStrategy st none = .ok stv) {ls' ms' : List Level}
    (hvl : LevelsMean E sc root ls ls') (hvm : LevelsMean E sc root (levelsOf md) ms') (fs : List Str) (ex : Option ExplOpts) :
    (∀ v ∈ valuesOf ls' root ++ valuesOf ms' root, WF v) ∧
    Gives E (nextInvocation s sc ex) ⟨joinDots (root :: fs), .name root :: fs.map .name⟩ opts (.ok ((bothValue stv ls' ms' root).bind (fieldOf fs))) := by
  refine ⟨fun v h => ?_, ?_⟩
  · rcases List.mem_append.1 h with h | h
    · exact (mean_config hq hvl v h).2
    · exact (mean_module hq hvm v h).2
  obtain ⟨t, ht, _⟩ := lookup_settled (site := sitesOf E ls (fun _ => md)) hq (sites_have hq (fun m h => h)) hst hvl hvm (joinDots (root :: fs)) fs
    (fresh_settled hs hl)
  cases ex with
  | none => exact ⟨3, t, ht⟩
  | some x =>
    have := (C27_explain E 3 ⟨joinDots (root :: fs), .name root :: fs.map .name⟩ opts (nextInvocation s sc none).v x).1
    refine gives_iff.2 ⟨3, ?_⟩
    refine Eq.trans this ?_
    show ((eval E 3).lookup _ opts (nextInvocation s sc none)).map Prod.fst = _
    rw [ht]
    rfl

/-- And so it is the merge of all values. -/
theorem module_combined {E : Env} {sc : Scope} {ls : List Level} {md : Option Module} {root st : Str} {opts : Entries} {s : St} (hs : Session E s)
    (hl : s.v.locked = []) (hq : ModuleQuestion E sc ls md root opts st) {stv : Strategy} (hst : getStrategy st none = .ok stv) {vs ws : List Value}
    (hv : List.Forall₂ (Fills E sc) (valuesOf ls root) vs) (hw : List.Forall₂ (Fills E sc) (valuesOf (levelsOf md) root) ws)
    (hp : InParts st (vs ++ ws)) (fs : List Str) (ex : Option ExplOpts) :
    (∀ v ∈ vs ++ ws, WF v) ∧
    Gives E (nextInvocation s sc ex) ⟨joinDots (root :: fs), .name root :: fs.map .name⟩ opts (.ok ((refCombine stv (vs ++ ws)).bind (fieldOf fs))) := by
  obtain ⟨ls', hvl, rfl⟩ := levels_mean hv
  obtain ⟨ms', hvm, rfl⟩ := levels_mean hw
  obtain ⟨wf, h⟩ := module_both hs hl hq hst hvl hvm fs ex
  refine ⟨wf, ?_⟩
  rw [← both_combined hst wf hp]
  exact h

/-- C111: of two set-ups with the same values for a key of a module in the same order, the answer is the same, however many of the values
are in the configuration and how many in the module. Missing: values that may not be merged in parts (`C111_false`). -/
theorem C111_moved_partial {E E' : Env} {s s' : St} (hs : Session E s) (hs' : Session E' s') (hl : s.v.locked = []) (hl' : s'.v.locked = [])
    {sc sc' : Scope} {ls ls' : List Level} {md md' : Option Module} {root st : Str} {opts opts' : Entries}
    (hq : ModuleQuestion E sc ls md root opts st) (hq' : ModuleQuestion E' sc' ls' md' root opts' st) {vs ws vs' ws' : List Value}
    (hv : List.Forall₂ (Fills E sc) (valuesOf ls root) vs) (hw : List.Forall₂ (Fills E sc) (valuesOf (levelsOf md) root) ws)
    (hv' : List.Forall₂ (Fills E' sc') (valuesOf ls' root) vs') (hw' : List.Forall₂ (Fills E' sc') (valuesOf (levelsOf md') root) ws')
    (h : vs ++ ws = vs' ++ ws') (hst : st ∈ ["first".toList, "unique".toList, "hash".toList, "deep".toList]) (hp : InParts st (vs ++ ws))
    {fs : List Str} (hf : ∀ f ∈ fs, KeyPart f) (ex ex' : Option ExplOpts) :
    ∃ k v, newKey (joinDots (root :: fs)) = .ok k ∧ Gives E (nextInvocation s sc ex) k opts (.ok v) ∧
      Gives E' (nextInvocation s' sc' ex') k opts' (.ok v) := by
  obtain ⟨stv, hstv⟩ := strategy_known hst
  have h1 := (module_combined hs hl hq hstv hv hw hp fs ex).2
  have h2 := (module_combined hs' hl' hq' hstv hv' hw' (h ▸ hp) fs ex').2
  rw [← h] at h2
  exact ⟨_, _, key_of hq.part hf, h1, h2⟩

/-- C111: and it is the same as in a set-up without modules that has all of the values. -/
theorem C111_together_partial {E E' : Env} (he' : StatelessEnv E') {s s' : St} (hs : Session E s) (hs' : Session E' s') (hl : s.v.locked = [])
    (hl' : s'.v.locked = []) {sc sc' : Scope} {ls ls' : List Level} {md : Option Module} {root st : Str} {opts opts' : Entries}
    (hq : ModuleQuestion E sc ls md root opts st) (hq' : Question E' sc' ls' root opts' st) {vs ws : List Value}
    (hv : List.Forall₂ (Fills E sc) (valuesOf ls root) vs) (hw : List.Forall₂ (Fills E sc) (valuesOf (levelsOf md) root) ws)
    (h : vs ++ ws = valuesOf ls' root) (hst : st ∈ ["first".toList, "unique".toList, "hash".toList, "deep".toList]) (hp : InParts st (vs ++ ws))
    (ha : ArrayIfAlone st (vs ++ ws)) {fs : List Str} (hf : ∀ f ∈ fs, KeyPart f) (ex ex' : Option ExplOpts) :
    ∃ k v, newKey (joinDots (root :: fs)) = .ok k ∧ Gives E (nextInvocation s sc ex) k opts (.ok v) ∧
      Gives E' (nextInvocation s' sc' ex') k opts' (.ok v) := by
  obtain ⟨stv, hstv⟩ := strategy_known hst
  have h1 := (module_combined hs hl hq hstv hv hw hp fs ex).2
  have h2 := answer_combined he' hs' hl' hq' hstv (h ▸ ha) (joinDots (root :: fs)) fs ex'
  rw [← h] at h2
  exact ⟨_, _, key_of hq.part hf, h1, h2⟩

namespace Moved111
open Modular104

/-- The set-up of C104, with the data of the module in the configuration. -/
def allLevels : List Level := [⟨"common".toList, [.text "common.yaml".toList], some mainData⟩, ⟨"app".toList, [.text "app.yaml".toList], some appData⟩]

def whole : Env :=
  { mk (configOf allLevels) [("/h/data/common.yaml".toList, .map mainData), ("/h/data/app.yaml".toList, .map appData)] with
    top := .mux
    muxFns := some [.config, .module] }

theorem wholeOrdinary : Ordinary whole scope allLevels where
  config := rfl
  named := by decide
  distinct := by decide
  paths := by
    intro l hl
    simp only [allLevels, List.mem_cons, List.not_mem_nil, or_false] at hl
    rcases hl with rfl | rfl
    · refine ⟨by decide, fun p hp => ?_⟩
      cases List.mem_singleton.1 hp
      show '%' ∉ _; decide
    · refine ⟨by decide, fun p hp => ?_⟩
      cases List.mem_singleton.1 hp
      show '%' ∉ _; decide
  vars := fun l => plainScope l _
  dataDir := fun h => by have := (hasMarker_iff _).2 h; revert this; decide
  pluginDir := fun h => by have := (hasMarker_iff _).2 h; revert this; decide
  there := by
    intro l hl es he
    simp only [allLevels, List.mem_cons, List.not_mem_nil, or_false] at hl
    rcases hl with rfl | rfl
    · cases he
      have hf : Level.file whole scope ⟨"common".toList, [.text "common.yaml".toList], some mainData⟩ = "/h/data/common.yaml".toList := by decide +kernel
      rw [hf]
      refine ⟨by decide +kernel, by rfl, ?_⟩
      simp [WF_map, mainData, s, UniqueKeys]
    · cases he
      have hf : Level.file whole scope ⟨"app".toList, [.text "app.yaml".toList], some appData⟩ = "/h/data/app.yaml".toList := by decide +kernel
      rw [hf]
      refine ⟨by decide +kernel, by rfl, ?_⟩
      simp [WF_map, appData, s, UniqueKeys]
  absent := by
    have : ∀ l ∈ allLevels, l.data.isNone = true → whole.stat (l.file whole scope) = false := by decide +kernel
    exact fun l hl h => this l hl (by rw [h]; rfl)

theorem wholeFills : List.Forall₂ (Fills whole scope) (valuesOf allLevels "app::users".toList) [.map [(s "eve", .map [(s "uid", .int 9)])], users] := by
  have e : valuesOf allLevels "app::users".toList = [.map [(s "eve", .map [(s "uid", .int 9)])], usersText.written] := by decide +kernel
  rw [e]
  exact .cons (.plain (unmarked_of_marked (by decide +kernel))) (.cons (usersFillIn (fun _ => List.not_mem_nil)) .nil)

theorem wholeQuestion : ModuleQuestion whole scope allLevels none "app::users".toList [] "deep".toList where
  setup := wholeOrdinary
  top := ⟨rfl, rfl⟩
  belongs := .unknown (n := "app".toList) (by
    obtain ⟨m, h1, h2⟩ := (beforeColons_iff "app::users".toList [] "app".toList).1 (by decide)
    exact h1 ▸ h2) (by decide) (fun d hd => nomatch hd)
  part := question.part
  ordinary := by decide
  values := by
    intro v hv
    have e : levelsOf none = [] := rfl
    rw [e, List.append_nil] at hv
    obtain ⟨w, _, h⟩ := mem_forall₂ wholeFills hv
    exact ⟨w, h⟩
  options := by
    have : valuesOf (allLevels ++ levelsOf none) "lookup_options".toList = valuesOf (mainLevels ++ levelsOf (some app)) "lookup_options".toList := by
      decide +kernel
    rw [this]
    exact question.options
  merge := .said rfl (by decide +kernel)

theorem inParts : InParts "deep".toList [.map [(s "eve", .map [(s "uid", .int 9)])], users] where
  hash := fun h => absurd h (by decide)
  deep := fun _ a b c h => absurd h.length_le (by simp)
  alone := fun h => absurd h (by decide)

/-- Not vacuous: users of which a part is in a module, and all users in the configuration. -/
example : ∃ k v, newKey "app::users.eve".toList = .ok k ∧ Gives world (newInvocation scope none) k [] (.ok v) ∧
    Gives whole (newInvocation scope none) k [] (.ok v) :=
  C111_moved_partial (.start scope none) (.start scope none) rfl rfl question wholeQuestion mainFills appFills wholeFills .nil (by simp) (by decide)
    inParts (fs := ["eve".toList]) (fun f hf => by cases List.mem_singleton.1 hf; exact ⟨by unfold Unquoted; decide, by decide, alpha_not_int (by decide)⟩)
    none none

/-- The same without modules, and without variables in the data. -/
def plainData : Entries := [
  (s "lookup_options", .map [(s "app::users", .map [(s "merge", s "deep")])]),
  (s "app::users", users)]

def plainLevels : List Level := [⟨"common".toList, [.text "common.yaml".toList], some mainData⟩, ⟨"app".toList, [.text "app.yaml".toList], some plainData⟩]

def plain : Env := mk (configOf plainLevels) [("/h/data/common.yaml".toList, .map mainData), ("/h/data/app.yaml".toList, .map plainData)]

theorem plainStateless : StatelessEnv plain := ⟨.inl rfl, (fun _ _ h => nomatch h), (fun _ _ h => nomatch h), (fun _ _ _ h => nomatch h)⟩

theorem plainOrdinary : Ordinary plain scope plainLevels where
  config := rfl
  named := by decide
  distinct := by decide
  paths := by
    intro l hl
    simp only [plainLevels, List.mem_cons, List.not_mem_nil, or_false] at hl
    rcases hl with rfl | rfl
    · refine ⟨by decide, fun p hp => ?_⟩
      cases List.mem_singleton.1 hp
      show '%' ∉ _; decide
    · refine ⟨by decide, fun p hp => ?_⟩
      cases List.mem_singleton.1 hp
      show '%' ∉ _; decide
  vars := fun l => plainScope l _
  dataDir := fun h => by have := (hasMarker_iff _).2 h; revert this; decide
  pluginDir := fun h => by have := (hasMarker_iff _).2 h; revert this; decide
  there := by
    intro l hl es he
    simp only [plainLevels, List.mem_cons, List.not_mem_nil, or_false] at hl
    rcases hl with rfl | rfl
    · cases he
      have hf : Level.file plain scope ⟨"common".toList, [.text "common.yaml".toList], some mainData⟩ = "/h/data/common.yaml".toList := by decide +kernel
      rw [hf]
      refine ⟨by decide +kernel, by rfl, ?_⟩
      simp [WF_map, mainData, s, UniqueKeys]
    · cases he
      have hf : Level.file plain scope ⟨"app".toList, [.text "app.yaml".toList], some plainData⟩ = "/h/data/app.yaml".toList := by decide +kernel
      rw [hf]
      refine ⟨by decide +kernel, by rfl, ?_⟩
      simp [WF_map, plainData, users, s, UniqueKeys]
  absent := by
    have : ∀ l ∈ plainLevels, l.data.isNone = true → plain.stat (l.file plain scope) = false := by decide +kernel
    exact fun l hl h => this l hl (by rw [h]; rfl)

theorem plainQuestion : Question plain scope plainLevels "app::users".toList [] "deep".toList where
  setup := plainOrdinary
  top := .inl rfl
  part := question.part
  ordinary := by decide
  values := fun v hv => unmarked_of_marked ((by decide +kernel : ∀ v ∈ valuesOf plainLevels "app::users".toList, marked v = false) v hv)
  options := by
    have : valuesOf plainLevels "lookup_options".toList = [.map [(s "app::users", .map [(s "merge", s "deep")])]] := by decide +kernel
    rw [this]
    intro v hv
    cases List.mem_singleton.1 hv
    refine ⟨unmarked_of_marked (by decide +kernel), _, rfl, fun o ho => ?_⟩
    have e : Entries.getS [(s "app::users", .map [(s "merge", s "deep")])] "app::users".toList = some (.map [(s "merge", s "deep")]) := by decide +kernel
    rw [e] at ho
    cases ho
    refine ⟨_, rfl, by decide +kernel, fun m hm => ?_⟩
    have e : Entries.getS [(s "merge", s "deep")] "merge".toList = some (s "deep") := by decide +kernel
    rw [e] at hm
    cases hm
    exact ⟨_, rfl⟩
  merge := .said rfl (by decide +kernel)

/-- Not vacuous: users of which a part is in a module, and all users in a set-up without modules. -/
example : ∃ k v, newKey "app::users".toList = .ok k ∧ Gives world (newInvocation scope none) k [] (.ok v) ∧
    Gives plain (newInvocation scope none) k [] (.ok v) :=
  C111_together_partial plainStateless (.start scope none) (.start scope none) rfl rfl question plainQuestion mainFills appFills (by decide +kernel)
    (by decide) inParts (fun h => absurd h (by decide)) (fs := []) (fun f hf => nomatch hf) none none

/-- Three files, of which the second has a number where the others have hashes. -/
def top : Value := .map [(s "app::limits", .map [(s "files", .map [(s "soft", .int 1)])])]
def middle : Value := .map [(s "app::limits", .map [(s "files", .int 5)])]
def bottom : Value := .map [(s "app::limits", .map [(s "files", .map [(s "hard", .int 2)])])]

/-- A set-up with these files. -/
def withModule (main module : Value) : Env :=
  { mk main [("/h/data/top.yaml".toList, top), ("/h/data/middle.yaml".toList, middle), ("/n/app/hiera.yaml".toList, module),
      ("/n/app/data/middle.yaml".toList, middle), ("/n/app/data/bottom.yaml".toList, bottom)] with
    top := .mux
    muxFns := some [.config, .module]
    modulePath := some ["/n".toList]
    readDir := fun p => if p = "/n".toList then .entries [("app".toList, true)] else .missing
    lstat := fun p => if p = "/n/app/hiera.yaml".toList then .file else .missing }

def before : Env := withModule (cfg [entry "top" "top.yaml", entry "middle" "middle.yaml"]) (cfg [entry "bottom" "bottom.yaml"])
def after : Env := withModule (cfg [entry "top" "top.yaml"]) (cfg [entry "middle" "middle.yaml", entry "bottom" "bottom.yaml"])

end Moved111

/-- C111 is false of the code for other values: if a level has a number for what is a hash above and below it, the hashes are merged if the
level is the lowest of the configuration, and not any more if it is moved to the top of the module. -/
theorem C111_false : ∃ k v w, newKey "app::limits".toList = .ok k ∧
    Gives Moved111.before (newInvocation (.map []) none) k [(s "merge", s "deep")] (.ok (some v)) ∧
    Gives Moved111.after (newInvocation (.map []) none) k [(s "merge", s "deep")] (.ok (some w)) ∧ equals v w = false := by
  refine ⟨⟨"app::limits".toList, [.name "app::limits".toList]⟩, .map [(s "files", .map [(s "soft", .int 1), (s "hard", .int 2)])],
    .map [(s "files", .map [(s "soft", .int 1)])], by decide +kernel, ?_, ?_, by decide +kernel⟩
  · exact gives_iff.2 ⟨3, by decide +kernel⟩
  · exact gives_iff.2 ⟨3, by decide +kernel⟩

end Hiera
