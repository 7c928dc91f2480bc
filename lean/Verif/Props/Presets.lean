import Verif.Props.Rungs
import Verif.Props.DefaultHierarchy

/-!
# C121: the defaults of the configuration
-/

set_option autoImplicit false

namespace Hiera

open Value Spec

theorem stepped_levels {E : Env} {sc : Scope} {rs : List Rung} {p : Option Preset} {ss : List Step} (h : Stepped E rs p ss)
    (hd : ¬Marked (theDataDir E)) (hp : ¬Marked (thePluginDir E)) (hv : ∀ x v, sc.get x = some v → Unmarked v) (n : Nat) {c : Cfg}
    (hc : newCfg E.cfg E.configPath (E.readYaml E.configPath) = .ok c) :
    refLevels E (ref E none (n + 1)) ⟨sc, .call⟩ c c.hierarchy = pure (rs.map (resolvedRung E sc)) ∧
      refLevels E (ref E none (n + 1)) ⟨sc, .call⟩ c c.defaultHierarchy = pure [] := by
  rw [newCfg_steps h] at hc
  cases hc
  unfold refLevels
  simp only [refPreset hd hp h.dir hv, Ans.pure_bind, refSteps h hv]
  exact ⟨trivial, rfl⟩

/-- C121: two configuration files in the same directory, whose levels are the same once what a level does not say is taken from the
defaults, give the same for all keys, whatever the data is: what the defaults say may as well be said in the levels, all or some of them,
and what no level needs need not be said. -/
theorem C121_filled {E : Env} (he : StatelessEnv E) {sc : Scope} {q : Str} {rs : List Rung} {p p' : Option Preset} {ss ss' : List Step}
    (h : Stepped E rs p ss) (h' : Stepped (withFiles E q E.readYaml E.readJson) rs p' ss') (hq : dir q = dir E.configPath)
    (hd : ¬Marked (theDataDir E)) (hp : ¬Marked (thePluginDir E)) (hv : ∀ x v, sc.get x = some v → Unmarked v)
    {s s' : St} (hs : Session E s) (hs' : Session (withFiles E q E.readYaml E.readJson) s')
    (ex ex' : Option ExplOpts) (k : Key) (o : Entries) (r : Res (Option Value)) :
    Gives (withFiles E q E.readYaml E.readJson) (nextInvocation s' sc ex') k o r ↔ Gives E (nextInvocation s sc ex) k o r := by
  have hc := newCfg_steps h
  have hc' := newCfg_steps h'
  rw [C81_session _ (statelessEnv_files he ..) ⟨_, hc'⟩ hs', C81_session _ he ⟨_, hc⟩ hs]
  have same : ∀ r : Rung, resolvedRung (withFiles E q E.readYaml E.readJson) sc r = resolvedRung E sc r := fun r => by
    unfold resolvedRung Rung.dataDir
    show Entry.mk (dir q) _ _ _ _ _ _ _ = _
    rw [show (withFiles E q E.readYaml E.readJson).configPath = q from rfl, hq]
    rfl
  have key : ∀ n m, refAnswer (withFiles E q E.readYaml E.readJson) sc k o (n + 1) m = refAnswer E sc k o (n + 1) m := by
    intro n m
    have e := stepped_levels (sc := sc) h hd hp hv n hc
    have e' := stepped_levels (sc := sc) h' hd hp hv n hc'
    rw [funext same] at e'
    simp only [ref_none_files E q E.readYaml E.readJson, refLevels_files E q E.readYaml E.readJson] at e'
    refine refAnswer_alike (shut_everything E sc) (.inr ⟨_, _, fun r r' C k st _ hr hC _ => refMerge_found_same hr hC k st (sameFound_refl E q _),
      e.1, e'.1⟩) (by rw [e.2, e'.2]) hc hc' trivial o m
  constructor
  · rintro ⟨n, m, h⟩
    have := refAnswer_mono (Nat.le_succ n) (Nat.le_refl m) _ h
    rw [key] at this
    exact ⟨_, _, this⟩
  · rintro ⟨n, m, h⟩
    have := refAnswer_mono (Nat.le_succ n) (Nat.le_refl m) _ h
    rw [← key] at this
    exact ⟨_, _, this⟩

/-- C121: a configuration file with defaults may as well be written without: every level says all that is meant. -/
theorem C121_spelled {E : Env} (he : StatelessEnv E) {sc : Scope} {q : Str} {rs : List Rung} {p : Option Preset} {ss : List Step}
    (h : Stepped E rs p ss) (hc : E.readYaml q = .value (configSaid none (rs.map (fun r => ⟨r.name, r.dir, some r.json, r.place⟩))))
    (hq : dir q = dir E.configPath)
    (hd : ¬Marked (theDataDir E)) (hp : ¬Marked (thePluginDir E)) (hv : ∀ x v, sc.get x = some v → Unmarked v)
    {s s' : St} (hs : Session E s) (hs' : Session (withFiles E q E.readYaml E.readJson) s')
    (ex ex' : Option ExplOpts) (k : Key) (o : Entries) (r : Res (Option Value)) :
    Gives (withFiles E q E.readYaml E.readJson) (nextInvocation s' sc ex') k o r ↔ Gives E (nextInvocation s sc ex) k o r := by
  refine C121_filled he h (p' := none) ⟨hc, ?_, nofun, ?_, ?_, ?_, ?_⟩ hq hd hp hv hs hs' ex ex' k o r
  · rw [List.map_map]
    refine (List.map_id'' (fun r => ?_) rs).symm
    show Rung.mk _ (r.dir.or none) _ _ = r
    rw [Option.or_none]
    rfl
  · rw [h.filled]
    simp only [List.mem_map]
    rintro _ ⟨_, ⟨x, hx, rfl⟩, rfl⟩
    exact h.named x hx
  · rw [h.filled, List.map_map, List.map_map]
    exact h.distinct
  · rw [h.filled]
    simp only [List.mem_map]
    rintro _ ⟨_, ⟨x, hx, rfl⟩, rfl⟩
    refine ⟨(h.texts x hx).1, fun d hd => ?_⟩
    rcases List.mem_append.1 hd with hd | hd
    · exact (h.texts x hx).2 d (List.mem_append_left _ hd)
    · change d ∈ (x.dir.or (p.bind Preset.dir)).toList at hd
      cases hx' : x.dir with
      | none =>
        rw [hx', Option.none_or, Option.mem_toList] at hd
        exact h.dir d hd
      | some d' =>
        rw [hx', Option.some_or] at hd
        exact (h.texts x hx).2 d (List.mem_append_right _ (hx' ▸ hd))
  · rw [h.filled]
    simp only [List.mem_map]
    rintro _ ⟨_, ⟨x, hx, rfl⟩, rfl⟩
    exact h.mapped x hx

/-! ### An example -/

namespace Presets121

open Rungs119

/-- The levels of the example of C119, without defaults. -/
def spelled : List Step := [
  ⟨"roles".toList, none, none, .mapped "roles".toList [] "role".toList [.text "role/".toList, .var "role".toList [], .text ".yaml".toList]⟩,
  ⟨"extra".toList, some [.text "/etc/".toList, .var "env".toList []], some true, .glob [.text "*.json".toList]⟩,
  ⟨"common".toList, none, some false, .paths [[.text "site.yaml".toList], [.text "common.yaml".toList]]⟩]

def other : Str := "/h/other.yaml".toList

def world : Env :=
  { Rungs119.world with
    readYaml := fun p => if p = other then .value (configSaid none spelled) else Rungs119.world.readYaml p }

theorem stateless : StatelessEnv world := ⟨Rungs119.stateless.1, Rungs119.stateless.2, Rungs119.stateless.3, Rungs119.stateless.4⟩

theorem dataDir : ¬Marked (theDataDir world) := fun h => by
  have := (hasMarker_iff _).2 h; revert this; show hasMarker "data".toList = true → False; decide

theorem pluginDir : ¬Marked (thePluginDir world) := fun h => by
  have := (hasMarker_iff _).2 h; revert this; show hasMarker "plugin".toList = true → False; decide

/-- Nothing changes with the configuration file that has no defaults. -/
example {st st' : St} (hs : Session world st) (hs' : Session (withFiles world other world.readYaml world.readJson) st')
    (k : Key) (o : Entries) (r : Res (Option Value)) :
    Gives (withFiles world other world.readYaml world.readJson) (nextInvocation st' scope none) k o r ↔
      Gives world (nextInvocation st scope none) k o r :=
  C121_filled stateless (stepped_as laddered (p := preset) (ss := steps) rfl rfl (by nofun))
    (stepped_as laddered (p := none) (ss := spelled) rfl rfl (by nofun)) (by decide +kernel) dataDir pluginDir laddered.vars hs hs' none none k o r

end Presets121

end Hiera
