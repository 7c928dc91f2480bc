/- C107 and C110 in set-ups with modules, whose data may have variables in it. -/
import Verif.Props.Moved

set_option autoImplicit false

namespace Hiera
open Value Spec World

theorem outcome_length (stv : Strategy) {ls ms : List Level} {key : Str} (h : valuesOf ls key = valuesOf ms key) (hn : ls.length = ms.length) :
    outcome stv ls key = outcome stv ms key := by
  by_cases hf : stv = .first
  · subst hf
    show (valuesOf ls key).head? = (valuesOf ms key).head?
    rw [h]
  match ls, ms, hn with
  | [], [], _ => rfl
  | [l], [m], _ =>
    rw [valuesOf_cons, valuesOf_cons] at h
    have e : l.has key = m.has key := by
      cases h1 : l.has key <;> cases h2 : m.has key <;> rw [h1, h2] at h <;> simp_all [valuesOf]
    cases stv with
    | first => exact absurd rfl hf
    | unique => exact congrArg (Option.map _) e
    | hash => exact congrArg (Option.map _) e
    | deep o => exact congrArg (Option.map _) e
  | _ :: _ :: _, _ :: _ :: _, _ =>
    cases stv with
    | first => exact absurd rfl hf
    | unique => exact congrArg (refCombine _) h
    | hash => exact congrArg (refCombine _) h
    | deep o => exact congrArg (refCombine _) h

theorem outcome_none (stv : Strategy) (key : Str) : outcome stv [] key = none := by cases stv <;> rfl

theorem outcome_WF (stv : Strategy) {ls : List Level} {key : Str} (hw : ∀ v ∈ valuesOf ls key, WF v) {x : Value} (h : outcome stv ls key = some x) : WF x := by
  have combined : refCombine stv (valuesOf ls key) = some x → WF x := fun h => by
    cases hv : valuesOf ls key with
    | nil => rw [hv] at h; cases h
    | cons u us =>
      rw [hv] at h hw
      cases h
      exact (fold_extends stv us (convert_WF stv (hw u (by simp))) (fun w h => hw w (by simp [h])) (flatFor_convert stv u)).2
  by_cases hf : stv = .first
  · subst hf
    exact hw x (List.mem_of_mem_head? h)
  · rcases outcome_part hf ls key with h' | ⟨v, h1, h2⟩
    · exact combined (h'.symm.trans h)
    · rw [h2] at h
      cases h
      have wv := hw v (by rw [h1]; simp)
      cases stv with
      | unique =>
        cases v with
        | arr es => exact WF_arr.2 (fun y hy => flatten_WF es (WF_arr.1 wv) y (unique_mem hy))
        | _ => exact wv
      | _ => exact wv

/-- C107: a module takes nothing away. If a module is added to a set-up that has none for a key, a lookup of the key that is merged in
the same way as before still has everything that it had. -/
theorem C107_module {E E' : Env} {s s' : St} (hs : Session E s) (hs' : Session E' s') (hl : s.v.locked = []) (hl' : s'.v.locked = [])
    {sc sc' : Scope} {ls : List Level} {m : Module} {root st : Str} {opts opts' : Entries}
    (hq : ModuleQuestion E sc ls none root opts st) (hq' : ModuleQuestion E' sc' ls (some m) root opts' st) {vs : List Value}
    (hv : List.Forall₂ (Fills E sc) (valuesOf ls root) vs) (hv' : List.Forall₂ (Fills E' sc') (valuesOf ls root) vs)
    (hst : st ∈ ["first".toList, "unique".toList, "hash".toList, "deep".toList]) {fs : List Str} (hf : ∀ f ∈ fs, KeyPart f)
    (ex ex' : Option ExplOpts) :
    ∃ k v w, newKey (joinDots (root :: fs)) = .ok k ∧ Gives E (nextInvocation s sc ex) k opts (.ok v) ∧
      Gives E' (nextInvocation s' sc' ex') k opts' (.ok w) ∧ ExtendsO v w := by
  obtain ⟨stv, hstv⟩ := strategy_known hst
  obtain ⟨as, a1, a2⟩ := levels_mean hv
  obtain ⟨bs, b1, b2⟩ := levels_mean hv'
  obtain ⟨ws, hw⟩ : ∃ ws, List.Forall₂ (Fills E' sc') (valuesOf (levelsOf (some m)) root) ws := by
    have : ∀ us : List Value, (∀ v ∈ us, ∃ w, Fills E' sc' v w) → ∃ ws, List.Forall₂ (Fills E' sc') us ws := fun us => by
      induction us with
      | nil => exact fun _ => ⟨[], .nil⟩
      | cons u us ih =>
        intro h
        obtain ⟨w, h1⟩ := h u (by simp)
        obtain ⟨ws, h2⟩ := ih (fun v hv => h v (by simp [hv]))
        exact ⟨w :: ws, .cons h1 h2⟩
    refine this _ (fun v h => hq'.values v ?_)
    simp only [valuesOf, List.filterMap_append] at h ⊢
    exact List.mem_append_right _ h
  obtain ⟨ms, m1, m2⟩ := levels_mean hw
  obtain ⟨w1, h1⟩ := module_both hs hl hq hstv (ls' := as) (ms' := []) a1 .nil fs ex
  obtain ⟨w2, h2⟩ := module_both hs' hl' hq' hstv (ls' := bs) (ms' := ms) b1 m1 fs ex'
  refine ⟨_, _, _, key_of hq.part hf, h1, h2, extendsO_field fs ?_⟩
  have e : outcome stv as root = outcome stv bs root := outcome_length stv (a2.trans b2.symm) (a1.length_eq.symm.trans b1.length_eq)
  by_cases hfi : stv = .first
  · subst hfi
    have first : ∀ ks ns : List Level, bothValue .first ks ns root = (valuesOf ks root ++ valuesOf ns root).head? := fun ks ns => by
      show (valuesOf [side root _, side root _] root).head? = _
      rw [valuesOf_sides]
      show ((valuesOf ks root).head?.toList ++ (valuesOf ns root).head?.toList).head? = _
      cases valuesOf ks root <;> cases valuesOf ns root <;> rfl
    rw [first, first, a2, b2]
    intro x hx
    cases vs with
    | nil => cases hx
    | cons v vs => exact ⟨x, hx, .same⟩
  · rw [both_two hfi, both_two hfi, outcome_none, e, Option.toList_none, List.append_nil]
    exact combine_extends stv (fun v h => outcome_WF stv (fun x hx => w2 x (List.mem_append_left _ hx)) (Option.mem_toList.1 h))
      (fun v h => outcome_WF stv (fun x hx => w2 x (List.mem_append_right _ hx)) (Option.mem_toList.1 h))

/-- C107 with modules: if values are added below, in the configuration or in the module, nothing is lost. Missing: values that may not be
merged in parts (as for C111). -/
theorem C107_modules_partial {E E' : Env} {s s' : St} (hs : Session E s) (hs' : Session E' s') (hl : s.v.locked = []) (hl' : s'.v.locked = [])
    {sc sc' : Scope} {ls ls' : List Level} {md md' : Option Module} {root st : Str} {opts opts' : Entries}
    (hq : ModuleQuestion E sc ls md root opts st) (hq' : ModuleQuestion E' sc' ls' md' root opts' st) {vs ws vs' ws' us : List Value}
    (hv : List.Forall₂ (Fills E sc) (valuesOf ls root) vs) (hw : List.Forall₂ (Fills E sc) (valuesOf (levelsOf md) root) ws)
    (hv' : List.Forall₂ (Fills E' sc') (valuesOf ls' root) vs') (hw' : List.Forall₂ (Fills E' sc') (valuesOf (levelsOf md') root) ws')
    (h : vs' ++ ws' = (vs ++ ws) ++ us) (hst : st ∈ ["first".toList, "unique".toList, "hash".toList, "deep".toList])
    (hp : InParts st (vs ++ ws)) (hp' : InParts st (vs' ++ ws')) {fs : List Str} (hf : ∀ f ∈ fs, KeyPart f) (ex ex' : Option ExplOpts) :
    ∃ k v w, newKey (joinDots (root :: fs)) = .ok k ∧ Gives E (nextInvocation s sc ex) k opts (.ok v) ∧
      Gives E' (nextInvocation s' sc' ex') k opts' (.ok w) ∧ ExtendsO v w := by
  obtain ⟨stv, hstv⟩ := strategy_known hst
  obtain ⟨w1, h1⟩ := module_combined hs hl hq hstv hv hw hp fs ex
  obtain ⟨w2, h2⟩ := module_combined hs' hl' hq' hstv hv' hw' hp' fs ex'
  refine ⟨_, _, _, key_of hq.part hf, h1, h2, extendsO_field fs ?_⟩
  rw [h] at w2 ⊢
  exact combine_extends stv w1 (fun u hu => w2 u (List.mem_append_right _ hu))

/-- C110 with modules: a value that is there above as well can be left out, wherever the two are. Missing: values that may not be merged
in parts (as for C111), and those of `C110_false`. -/
theorem C110_modules_partial {E E' : Env} {s s' : St} (hs : Session E s) (hs' : Session E' s') (hl : s.v.locked = []) (hl' : s'.v.locked = [])
    {sc sc' : Scope} {ls ls' : List Level} {md md' : Option Module} {root st : Str} {opts opts' : Entries}
    (hq : ModuleQuestion E sc ls md root opts st) (hq' : ModuleQuestion E' sc' ls' md' root opts' st) {vs ws vs' ws' us ts : List Value} {x : Value}
    (hv : List.Forall₂ (Fills E sc) (valuesOf ls root) vs) (hw : List.Forall₂ (Fills E sc) (valuesOf (levelsOf md) root) ws)
    (hv' : List.Forall₂ (Fills E' sc') (valuesOf ls' root) vs') (hw' : List.Forall₂ (Fills E' sc') (valuesOf (levelsOf md') root) ws')
    (h : vs ++ ws = us ++ x :: ts) (h' : vs' ++ ws' = us ++ ts) (hx : x ∈ us) (hd : st = "deep".toList → NoDups x)
    (hst : st ∈ ["first".toList, "unique".toList, "hash".toList, "deep".toList]) (ha : ArrayIfAlone st (us ++ ts))
    (hp : InParts st (vs ++ ws)) (hp' : InParts st (vs' ++ ws')) {fs : List Str} (hf : ∀ f ∈ fs, KeyPart f) (ex ex' : Option ExplOpts) :
    ∃ k v w, newKey (joinDots (root :: fs)) = .ok k ∧ Gives E (nextInvocation s sc ex) k opts (.ok v) ∧
      Gives E' (nextInvocation s' sc' ex') k opts' (.ok w) ∧ SameButOrder v w ∧ (st ≠ "hash".toList → v = w) := by
  obtain ⟨stv, hstv⟩ := strategy_known hst
  obtain ⟨w1, h1⟩ := module_combined hs hl hq hstv hv hw hp fs ex
  obtain ⟨w2, h2⟩ := module_combined hs' hl' hq' hstv hv' hw' hp' fs ex'
  rw [h] at h1
  rw [h'] at w2 h2
  obtain ⟨same, a, b, e1, e2, wa, wb, eab⟩ := combine_again stv (us := us) (ws := ts) (v := x) (fun u hu => w2 u (List.mem_append_left _ hu))
    (fun u hu => w2 u (List.mem_append_right _ hu)) hx (fun o ho => hd ((deep_named hstv).1 ⟨o, ho⟩))
    (fun hu y hy => ha (by rw [← strategy_by_name hstv, hu]; rfl) y hy)
  refine ⟨_, _, _, key_of hq.part hf, h1, h2, ?_, fun hn => ?_⟩
  · rw [e1, e2]
    exact equals_field fs wa wb eab
  · rw [same (fun hh => hn (by rw [← strategy_by_name hstv, hh]; rfl))]

namespace BelowModules107
open Modular104 Moved111

/-- The set-up of C104 without the module. -/
def without : Env := { world with modulePath := none }

theorem withoutOrdinary : Ordinary without scope mainLevels :=
  ⟨mainOrdinary.config, mainOrdinary.named, mainOrdinary.distinct, mainOrdinary.paths, mainOrdinary.vars, mainOrdinary.dataDir, mainOrdinary.pluginDir,
    mainOrdinary.there, mainOrdinary.absent⟩

def asked : Entries := [(s "merge", s "deep")]

theorem withoutFills : List.Forall₂ (Fills without scope) (valuesOf mainLevels "app::users".toList) [.map [(s "eve", .map [(s "uid", .int 9)])]] := by
  have e : valuesOf mainLevels "app::users".toList = [.map [(s "eve", .map [(s "uid", .int 9)])]] := by decide +kernel
  rw [e]
  exact .cons (.plain (unmarked_of_marked (by decide +kernel))) .nil

theorem withoutQuestion : ModuleQuestion without scope mainLevels none "app::users".toList asked "deep".toList where
  setup := withoutOrdinary
  top := ⟨rfl, rfl⟩
  belongs := .unknown (n := "app".toList) (by
    obtain ⟨m, h1, h2⟩ := (beforeColons_iff "app::users".toList [] "app".toList).1 (by decide)
    exact h1 ▸ h2) (by decide) (fun d hd => nomatch hd)
  part := question.part
  ordinary := by decide
  values := by
    intro v hv
    have e : levelsOf none = [] := rfl
    rw [e, List.append_nil] at hv
    obtain ⟨w, _, h⟩ := mem_forall₂ withoutFills hv
    exact ⟨w, h⟩
  options := by
    have : valuesOf (mainLevels ++ levelsOf none) "lookup_options".toList = [] := by decide +kernel
    rw [this]
    exact fun v hv => nomatch hv
  merge := .asked (by decide +kernel)

theorem withQuestion : ModuleQuestion world scope mainLevels (some app) "app::users".toList asked "deep".toList :=
  { question with merge := .asked (by decide +kernel) }

/-- Not vacuous: the users before and after the module is added. -/
example : ∃ k v w, newKey "app::users".toList = .ok k ∧ Gives without (newInvocation scope none) k asked (.ok v) ∧
    Gives world (newInvocation scope none) k asked (.ok w) ∧ ExtendsO v w :=
  C107_module (.start scope none) (.start scope none) rfl rfl withoutQuestion withQuestion withoutFills mainFills (by decide) (fs := [])
    (fun f hf => nomatch hf) none none

example : ∃ k v w, newKey "app::users".toList = .ok k ∧ Gives without (newInvocation scope none) k asked (.ok v) ∧
    Gives world (newInvocation scope none) k asked (.ok w) ∧ ExtendsO v w :=
  C107_modules_partial (.start scope none) (.start scope none) rfl rfl withoutQuestion withQuestion withoutFills .nil mainFills appFills rfl (by decide)
    ⟨fun h => absurd h (by decide), fun _ a b c h => absurd h.length_le (by simp), fun h => absurd h (by decide)⟩ inParts (fs := [])
    (fun f hf => nomatch hf) none none

/-- The data of the module, in the module and in the configuration. -/
def both : Env :=
  { mk (configOf allLevels) [("/h/data/common.yaml".toList, .map mainData), ("/h/data/app.yaml".toList, .map appData),
      ("/n/App/hiera.yaml".toList, configOf appLevels), ("/n/App/data/defaults.yaml".toList, .map appData)] with
    top := .mux
    muxFns := some [.config, .module]
    modulePath := world.modulePath
    readDir := world.readDir
    lstat := world.lstat }

theorem bothMain : Ordinary both scope allLevels where
  config := rfl
  named := by decide
  distinct := by decide
  paths := by
    intro l hl
    simp only [allLevels, List.mem_cons, List.not_mem_nil, or_false] at hl
    rcases hl with rfl | rfl
    · refine ⟨by decide, fun p hp => ?_⟩
      cases List.mem_singleton.1 hp
      show '%' ∉ _; decide
    · refine ⟨by decide, fun p hp => ?_⟩
      cases List.mem_singleton.1 hp
      show '%' ∉ _; decide
  vars := fun l => plainScope l _
  dataDir := fun h => by have := (hasMarker_iff _).2 h; revert this; decide
  pluginDir := fun h => by have := (hasMarker_iff _).2 h; revert this; decide
  there := by
    intro l hl es he
    simp only [allLevels, List.mem_cons, List.not_mem_nil, or_false] at hl
    rcases hl with rfl | rfl
    · cases he
      have hf : Level.file both scope ⟨"common".toList, [.text "common.yaml".toList], some mainData⟩ = "/h/data/common.yaml".toList := by decide +kernel
      rw [hf]
      refine ⟨by decide +kernel, by rfl, ?_⟩
      simp [WF_map, mainData, s, UniqueKeys]
    · cases he
      have hf : Level.file both scope ⟨"app".toList, [.text "app.yaml".toList], some appData⟩ = "/h/data/app.yaml".toList := by decide +kernel
      rw [hf]
      refine ⟨by decide +kernel, by rfl, ?_⟩
      simp [WF_map, appData, s, UniqueKeys]
  absent := by
    have : ∀ l ∈ allLevels, l.data.isNone = true → both.stat (l.file both scope) = false := by decide +kernel
    exact fun l hl h => this l hl (by rw [h]; rfl)

theorem bothApp : Ordinary (atFile both "/n/App/hiera.yaml".toList) scope appLevels where
  config := rfl
  named := by decide
  distinct := by decide
  paths := by
    intro l hl
    simp only [appLevels, List.mem_cons, List.not_mem_nil, or_false] at hl
    rcases hl with rfl | rfl
    · refine ⟨by decide, fun p hp => ?_⟩
      simp only [List.mem_cons, List.not_mem_nil, or_false] at hp
      rcases hp with rfl | rfl | rfl
      · show '%' ∉ _; decide
      · exact ⟨⟨by decide, by decide⟩, fun f hf => nomatch hf⟩
      · show '%' ∉ _; decide
    · refine ⟨by decide, fun p hp => ?_⟩
      cases List.mem_singleton.1 hp
      show '%' ∉ _; decide
  vars := fun l => plainScope l _
  dataDir := fun h => by have := (hasMarker_iff _).2 h; revert this; decide
  pluginDir := fun h => by have := (hasMarker_iff _).2 h; revert this; decide
  there := by
    intro l hl es he
    simp only [appLevels, List.mem_cons, List.not_mem_nil, or_false] at hl
    rcases hl with rfl | rfl
    · cases he
    · cases he
      have hf : Level.file (atFile both "/n/App/hiera.yaml".toList) scope ⟨"defaults".toList, [.text "defaults.yaml".toList], some appData⟩ =
        "/n/App/data/defaults.yaml".toList := by decide +kernel
      rw [hf]
      refine ⟨by decide +kernel, by rfl, ?_⟩
      simp [WF_map, appData, s, UniqueKeys]
  absent := by
    have : ∀ l ∈ appLevels, l.data.isNone = true → both.stat (l.file (atFile both "/n/App/hiera.yaml".toList) scope) = false := by decide +kernel
    exact fun l hl h => this l hl (by rw [h]; rfl)

theorem bothBelongs (n key : Str) (hk : beforeColons [] key = some n) (hn : n ≠ []) (hl : toLower n = "app".toList) : Belongs both scope key (some app) := by
  unfold app
  rw [← hl]
  refine .module (n := n) (d := "/n".toList) (pre := ["/m".toList]) (post := []) ?_ hn rfl ?_ ?_ ?_ (by decide) bothApp
  · obtain ⟨m, h1, h2⟩ := (beforeColons_iff key [] n).1 hk
    exact h1 ▸ h2
  · intro e he
    cases List.mem_singleton.1 he
    refine ⟨fun es h => ?_, .inr ⟨_, rfl, fun dir hm hl' => ?_⟩⟩
    · cases h; decide
    · simp only [List.mem_singleton, Prod.mk.injEq, and_true] at hm
      subst hm
      rw [hl] at hl'
      exact absurd hl' (by decide)
  · intro es h
    cases h
    decide
  · exact ⟨_, "App".toList, rfl, by decide, by rw [hl]; decide, by decide +kernel, rfl⟩

theorem bothFills : List.Forall₂ (Fills both scope) (valuesOf allLevels "app::users".toList) [.map [(s "eve", .map [(s "uid", .int 9)])], users] := by
  have e : valuesOf allLevels "app::users".toList = [.map [(s "eve", .map [(s "uid", .int 9)])], usersText.written] := by decide +kernel
  rw [e]
  exact .cons (.plain (unmarked_of_marked (by decide +kernel))) (.cons (usersFillIn (fun _ => List.not_mem_nil)) .nil)

theorem bothAppFills : List.Forall₂ (Fills both scope) (valuesOf (levelsOf (some app)) "app::users".toList) [users] := by
  have e : valuesOf (levelsOf (some app)) "app::users".toList = [usersText.written] := by decide +kernel
  rw [e]
  exact .cons (usersFillIn (fun _ => List.not_mem_nil)) .nil

theorem bothQuestion : ModuleQuestion both scope allLevels (some app) "app::users".toList [] "deep".toList where
  setup := bothMain
  top := ⟨rfl, rfl⟩
  belongs := bothBelongs "app".toList _ (by decide) (by decide) (by decide)
  part := question.part
  ordinary := by decide
  values := by
    intro v hv
    simp only [valuesOf, List.filterMap_append] at hv
    rcases List.mem_append.1 hv with hv | hv
    · obtain ⟨w, _, h⟩ := mem_forall₂ bothFills hv; exact ⟨w, h⟩
    · obtain ⟨w, _, h⟩ := mem_forall₂ bothAppFills hv; exact ⟨w, h⟩
  options := by
    intro v hv
    refine question.options v ?_
    have e1 : valuesOf (allLevels ++ levelsOf (some app)) "lookup_options".toList =
      valuesOf (mainLevels ++ levelsOf (some app)) "lookup_options".toList ++ valuesOf (mainLevels ++ levelsOf (some app)) "lookup_options".toList := by
        decide +kernel
    rw [e1] at hv
    exact (List.mem_append.1 hv).elim id id
  merge := .said rfl (by decide +kernel)

theorem bothParts : InParts "deep".toList [.map [(s "eve", .map [(s "uid", .int 9)])], users, users] where
  hash := fun h => absurd h (by decide)
  deep := fun _ a b c h => by
    have h := List.Sublist.eq_of_length h rfl
    cases h
    intro path x y z _ _ hy hz hs
    rw [hy] at hz
    cases hz
    exact hs
  alone := fun h => absurd h (by decide)

/-- Not vacuous: the users of a module that are in the configuration as well. -/
example : ∃ k v w, newKey "app::users".toList = .ok k ∧ Gives both (newInvocation scope none) k [] (.ok v) ∧
    Gives whole (newInvocation scope none) k [] (.ok w) ∧ SameButOrder v w ∧ ("deep".toList ≠ "hash".toList → v = w) :=
  C110_modules_partial (us := [.map [(s "eve", .map [(s "uid", .int 9)])], users]) (ts := []) (x := users) (.start scope none) (.start scope none) rfl rfl
    bothQuestion wholeQuestion bothFills bothAppFills wholeFills .nil rfl rfl (by simp) (fun _ => by simp [NoDups, NoDupsE, users, s]) (by decide)
    (fun h => absurd h (by decide)) bothParts inParts (fs := []) (fun f hf => nomatch hf) none none

end BelowModules107

end Hiera
