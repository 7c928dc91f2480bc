import Verif.Spec.RungsKept
import Verif.Props.Presets
import Verif.Props.Spelled
import Verif.Props.Found

/-!
# C122: only the files that a level stands for count
-/

set_option autoImplicit false

namespace Hiera

open Value Spec

theorem forall₂_left {α β : Type} {R : α → β → Prop} : ∀ {xs : List α} {ys : List β}, List.Forall₂ R xs ys → ∀ {x : α}, x ∈ xs → ∃ y ∈ ys, R x y
  | _, _, .cons h hs, x, hx => by
    rcases List.mem_cons.1 hx with rfl | hx
    · exact ⟨_, List.mem_cons_self .., h⟩
    · obtain ⟨y, hy, h⟩ := forall₂_left hs hx
      exact ⟨y, List.mem_cons_of_mem _ hy, h⟩

/-- The locations of a level are its files. -/
theorem resolved_files {E : Env} (hm : ∀ p, ∀ f ∈ E.glob p, E.stat f = true) (sc : Scope) (r : Rung) :
    List.Forall₂ (fun l f => ∃ o, l = Loc.path o f (E.stat f)) (r.place.resolved E sc (r.dataDir E sc)) (r.files E sc) := by
  have globbed : ∀ o p, List.Forall₂ (fun l f => ∃ o, l = Loc.path o f (E.stat f)) ((E.glob p).map (fun m => .path o m true)) (E.glob p) := fun o p => by
    rw [List.forall₂_map_left_iff]
    exact List.forall₂_same.2 (fun f hf => ⟨o, by rw [hm p f hf]⟩)
  unfold Rung.files
  cases r.place with
  | path p => exact .cons ⟨_, rfl⟩ .nil
  | paths ps =>
    simp only [Whereabouts.resolved]
    rw [List.forall₂_map_left_iff, List.forall₂_map_right_iff]
    exact List.forall₂_same.2 (fun p _ => ⟨_, rfl⟩)
  | glob p => exact globbed _ _
  | globs ps =>
    simp only [Whereabouts.resolved]
    induction ps with
    | nil => exact .nil
    | cons p ps ih =>
      rw [List.flatMap_cons, List.flatMap_cons]
      exact List.rel_append (globbed _ _) ih
  | mapped x fs as p =>
    simp only [Whereabouts.resolved]
    rw [List.forall₂_map_left_iff, List.forall₂_map_right_iff]
    exact List.forall₂_same.2 (fun v _ => ⟨_, rfl⟩)

/-- What a level reads from a file. -/
theorem refHash_rung (E : Env) (sc : Scope) (r : Rung) (o f : Str) :
    refHash E (resolvedRung E sc r) r.reader (refOpts (resolvedRung E sc r) (some (.path o f true))) =
      match r.content E f with
      | .missing => .ok []
      | .err e => .panic e
      | .value (.map es) => .ok es
      | .value _ => .panic (.notHash f) := by
  have read : ∀ rd : Str → FileRes, fileData E rd (refOpts (resolvedRung E sc r) (some (.path o f true))) =
      match rd f with
      | .missing => .ok []
      | .err e => .panic e
      | .value (.map es) => .ok es
      | .value _ => .panic (.notHash f) := fun rd => rfl
  unfold Rung.content
  cases hj : r.json with
  | false =>
    have hn : r.reader = "yaml_data".toList := by rw [Rung.reader, hj]; rfl
    rw [hn, refHash, if_pos rfl, read]
    rfl
  | true =>
    have hn : r.reader = "json_data".toList := by rw [Rung.reader, hj]; rfl
    rw [hn, refHash, if_neg (by decide), if_pos rfl, read]
    rfl

theorem sameAt_file {E E' : Env} {sc : Scope} {r r' : Rung} {f f' : Str} (h : SameFile E E' r r' f f') (o o' : Str) :
    SameAt E E' (resolvedRung E sc r) (resolvedRung E' sc r') r.reader r'.reader (.path o f (E.stat f)) (.path o' f' (E'.stat f')) := by
  cases h with
  | one h1 h2 =>
    rw [h1]
    cases hs : E.stat f with
    | false => exact .neither nofun nofun
    | true =>
      refine .read rfl rfl ?_
      rw [refHash_rung, refHash_rung, h2]
      exact sameData_refl _
  | absent h1 h2 =>
    rw [h1, h2]
    exact .neither nofun nofun
  | copy h1 h2 h3 h4 h5 =>
    rw [h1, h2]
    refine .read rfl rfl ?_
    rw [refHash_rung, refHash_rung, h3, h4]
    exact .read h5

theorem sameSources_rung {E E' : Env} (hm : ∀ p, ∀ f ∈ E.glob p, E.stat f = true) (hm' : ∀ p, ∀ f ∈ E'.glob p, E'.stat f = true)
    {sc : Scope} {r r' : Rung} (h : SameFiles E E' sc r r') : SameSources E E' (resolvedRung E sc r) (resolvedRung E' sc r') := by
  have h1 := resolved_files hm sc r
  have h2 := resolved_files hm' sc r'
  refine .places rfl rfl rfl rfl (by rw [h1.length_eq, h2.length_eq]; exact h.one) ?_
  have h := h.same
  generalize r.files E sc = fs at h h1
  generalize r'.files E' sc = fs' at h h2
  generalize r.place.resolved E sc (r.dataDir E sc) = ls at h1
  generalize r'.place.resolved E' sc (r'.dataDir E' sc) = ls' at h2
  induction h generalizing ls ls' with
  | nil => cases h1; cases h2; exact .nil
  | both h _ ih =>
    cases h1 with
    | cons g1 h1 =>
      cases h2 with
      | cons g2 h2 =>
        obtain ⟨o, rfl⟩ := g1
        obtain ⟨o', rfl⟩ := g2
        exact .both (sameAt_file h o o') (ih _ h1 _ h2)
  | fewer h _ ih =>
    cases h1 with
    | cons g1 h1 =>
      obtain ⟨o, rfl⟩ := g1
      refine .fewer ?_ (ih _ h1 _ h2)
      rw [h]
      nofun
  | more h _ ih =>
    cases h2 with
    | cons g2 h2 =>
      obtain ⟨o, rfl⟩ := g2
      refine .more ?_ (ih _ h1 _ h2)
      rw [h]
      nofun

theorem bits_bare {E : Env} (hm : ∀ p, ∀ f ∈ E.glob p, E.stat f = true) {sc : Scope} {r : Rung} (h : Bare E sc r) : Carries E (resolvedRung E sc r) [] := by
  refine .missing rfl (fun l hl => ?_)
  obtain ⟨f, hf, o, rfl⟩ := forall₂_left (resolved_files hm sc r) hl
  rw [h f hf]
  nofun

theorem sameFound_rungs {E E' : Env} (hm : ∀ p, ∀ f ∈ E.glob p, E.stat f = true) (hm' : ∀ p, ∀ f ∈ E'.glob p, E'.stat f = true)
    {sc : Scope} {rs rs' : List Rung} (h : SameLevels E E' sc rs rs') (h1 : rs.length = 1 ↔ rs'.length = 1) :
    SameFound E E' (rs.map (resolvedRung E sc)) (rs'.map (resolvedRung E' sc)) := by
  refine ⟨by simpa using h1, fun q => ?_⟩
  clear h1
  induction h with
  | nil => exact ⟨[], [], .nil, .nil, .nil⟩
  | both h _ ih =>
    obtain ⟨bs, bs', h1, h2, h3⟩ := ih
    exact ⟨_, _, .other h1, .other h2, .cons (.level (sameSources_rung hm hm' h)) h3⟩
  | fewer h _ ih =>
    obtain ⟨bs, bs', h1, h2, h3⟩ := ih
    exact ⟨_, _, .nothing (bits_bare hm h) rfl h1, h2, h3⟩
  | more h _ ih =>
    obtain ⟨bs, bs', h1, h2, h3⟩ := ih
    exact ⟨_, _, h1, .nothing (bits_bare hm' h) rfl h2, h3⟩

/-- C122: two configuration files whose levels, one by one, stand for files that have the same, give the same for all keys, whatever the
data is. Levels without any file do not count, as long as there is not exactly one level, and nor
do files of a level that are not there, as long as it does not stand for exactly one file. It does not matter in which directories the configuration files and the data are, how the levels are called, whether files are
listed, matched by patterns or named after the elements of a variable, which formats they have, and what is said in the defaults. -/
theorem C122_files {E : Env} (he : StatelessEnv E) {sc : Scope} {q : Str} {ry rj : Str → FileRes} {rs rs' : List Rung} {p p' : Option Preset}
    {ss ss' : List Step} (h : Stepped E rs p ss) (h' : Stepped (withFiles E q ry rj) rs' p' ss')
    (hf : SameLevels E (withFiles E q ry rj) sc rs rs') (h1 : rs.length = 1 ↔ rs'.length = 1)
    (hm : ∀ p, ∀ f ∈ E.glob p, E.stat f = true)
    (hd : ¬Marked (theDataDir E)) (hp : ¬Marked (thePluginDir E)) (hv : ∀ x v, sc.get x = some v → Unmarked v)
    {s s' : St} (hs : Session E s) (hs' : Session (withFiles E q ry rj) s')
    (ex ex' : Option ExplOpts) (k : Key) (o : Entries) (r : Res (Option Value)) :
    Gives (withFiles E q ry rj) (nextInvocation s' sc ex') k o r ↔ Gives E (nextInvocation s sc ex) k o r := by
  have hc := newCfg_steps h
  have hc' := newCfg_steps h'
  rw [C81_session _ (statelessEnv_files he ..) ⟨_, hc'⟩ hs', C81_session _ he ⟨_, hc⟩ hs]
  have key : ∀ n m, refAnswer (withFiles E q ry rj) sc k o (n + 1) m = refAnswer E sc k o (n + 1) m := by
    intro n m
    have e := stepped_levels (sc := sc) h hd hp hv n hc
    have e' := stepped_levels (sc := sc) h' hd hp hv n hc'
    simp only [ref_none_files E q ry rj, refLevels_files E q ry rj] at e'
    exact refAnswer_alike (shut_everything E sc) (.inr ⟨_, _, fun r r' C k st _ hr hC _ =>
      refMerge_found_same hr hC k st (sameFound_rungs (E' := withFiles E q ry rj) hm hm hf h1), e.1, e'.1⟩) (by rw [e.2, e'.2]) hc hc' trivial o m
  constructor
  · rintro ⟨n, m, h⟩
    have := refAnswer_mono (Nat.le_succ n) (Nat.le_refl m) _ h
    rw [key] at this
    exact ⟨_, _, this⟩
  · rintro ⟨n, m, h⟩
    have := refAnswer_mono (Nat.le_succ n) (Nat.le_refl m) _ h
    rw [← key] at this
    exact ⟨_, _, this⟩

namespace RungsKept122

open World Rungs119

def other : Str := "/srv/other.yaml".toList

/-- The defaults of the other configuration file, which is in another directory. -/
def preset' : Option Preset := some ⟨some [.text "/h/data".toList], none⟩

/-- Its levels: paths for roles, a level without files, a YAML file instead of a JSON file, and other paths for files that are not there. -/
def steps' : List Step := [
  ⟨"people".toList, none, none, .paths [[.text "role/web.yaml".toList], [.text "role/db.yaml".toList]]⟩,
  ⟨"nodes".toList, none, none, .glob [.text "node/*".toList]⟩,
  ⟨"json".toList, some [.text "/srv".toList], none, .path [.text "extra.yaml".toList]⟩,
  ⟨"rest".toList, none, none, .paths [[.text "nothing.yaml".toList], [.text "either.yaml".toList], [.text "common.yaml".toList]]⟩]

def rungs' : List Rung := steps'.map (Step.filled preset')

def files' : List (Str × Value) := ("/srv/extra.yaml".toList, .map extra) :: files

def world' : Env :=
  { Rungs119.world with
    stat := fun p => (assoc p files').isSome,
    readYaml := fun p => if p = "/h/hiera.yaml".toList then .value (configSaid preset steps) else
      if p = other then .value (configSaid preset' steps') else match assoc p files' with
      | some v => .value v
      | none => .missing }

theorem stateless : StatelessEnv world' := ⟨Rungs119.stateless.1, Rungs119.stateless.2, Rungs119.stateless.3, Rungs119.stateless.4⟩

theorem dataDir : ¬Marked (theDataDir world') := fun h => by
  have := (hasMarker_iff _).2 h; revert this; show hasMarker "data".toList = true → False; decide

theorem pluginDir : ¬Marked (thePluginDir world') := fun h => by
  have := (hasMarker_iff _).2 h; revert this; show hasMarker "plugin".toList = true → False; decide

abbrev there : Env := withFiles world' other world'.readYaml world'.readJson

theorem stepped : Stepped there rungs' preset' steps' where
  config := rfl
  filled := rfl
  dir := fun d h => by
    cases h
    refine ⟨by decide, fun x hx => ?_⟩
    cases List.mem_singleton.1 hx
    show '%' ∉ _; decide
  named := by
    intro r hr
    simp only [steps', List.mem_cons, List.not_mem_nil, or_false] at hr
    rcases hr with rfl | rfl | rfl | rfl <;> decide
  distinct := by
    show ["people".toList, "nodes".toList, "json".toList, "rest".toList].Nodup
    decide
  texts := by
    have one : ∀ t : Str, t ≠ [] → '%' ∉ t → textWritten [.text t] ≠ [] ∧ ∀ x ∈ [PathPiece.text t], x.Ok := fun t h1 h2 => by
      refine ⟨?_, fun x hx => ?_⟩
      · show t ++ [] ≠ []
        rw [List.append_nil]; exact h1
      · cases List.mem_singleton.1 hx
        exact h2
    intro r hr
    simp only [steps', List.mem_cons, List.not_mem_nil, or_false] at hr
    rcases hr with rfl | rfl | rfl | rfl
    · refine ⟨by show [_, _] ≠ []; simp, fun p hp => ?_⟩
      change p ∈ [[.text "role/web.yaml".toList], [.text "role/db.yaml".toList]] at hp
      simp only [List.mem_cons, List.not_mem_nil, or_false] at hp
      rcases hp with rfl | rfl <;> exact one _ (by decide) (by decide)
    · refine ⟨by show [_] ≠ []; simp, fun p hp => ?_⟩
      change p ∈ [[.text "node/*".toList]] at hp
      cases List.mem_singleton.1 hp
      exact one _ (by decide) (by decide)
    · refine ⟨by show [_] ≠ []; simp, fun p hp => ?_⟩
      change p ∈ [[.text "extra.yaml".toList], [.text "/srv".toList]] at hp
      simp only [List.mem_cons, List.not_mem_nil, or_false] at hp
      rcases hp with rfl | rfl <;> exact one _ (by decide) (by decide)
    · refine ⟨by show [_, _, _] ≠ []; simp, fun p hp => ?_⟩
      change p ∈ [[.text "nothing.yaml".toList], [.text "either.yaml".toList], [.text "common.yaml".toList]] at hp
      simp only [List.mem_cons, List.not_mem_nil, or_false] at hp
      rcases hp with rfl | rfl | rfl <;> exact one _ (by decide) (by decide)
  mapped := by
    intro r hr x fs as p h
    simp only [steps', List.mem_cons, List.not_mem_nil, or_false] at hr
    rcases hr with rfl | rfl | rfl | rfl <;> cases h

theorem same : SameLevels world' there scope rungs rungs' := by
  refine .both ?_ (.more ?_ (.both ?_ (.both ?_ .nil)))
  · have h1 : Rung.files world' scope ⟨"roles".toList, none, false, .mapped "roles".toList [] "role".toList
        [.text "role/".toList, .var "role".toList [], .text ".yaml".toList]⟩ = ["/h/data/role/web.yaml".toList, "/h/data/role/db.yaml".toList] := by
      decide +kernel
    have h2 : Rung.files there scope (Step.filled preset' ⟨"people".toList, none, none, .paths [[.text "role/web.yaml".toList],
        [.text "role/db.yaml".toList]]⟩) = ["/h/data/role/web.yaml".toList, "/h/data/role/db.yaml".toList] := by
      decide +kernel
    refine ⟨by rw [h1, h2], ?_⟩
    rw [h1, h2]
    exact .both (.one rfl rfl) (.both (.one rfl rfl) .nil)
  · intro f hf
    have h : Rung.files there scope (Step.filled preset' ⟨"nodes".toList, none, none, .glob [.text "node/*".toList]⟩) = [] := by decide +kernel
    rw [h] at hf
    cases hf
  · have h1 : Rung.files world' scope ⟨"extra".toList, some [.text "/etc/".toList, .var "env".toList []], true, .glob [.text "*.json".toList]⟩ =
        ["/etc/prod/x.json".toList] := by
      decide +kernel
    have h2 : Rung.files there scope (Step.filled preset' ⟨"json".toList, some [.text "/srv".toList], none, .path [.text "extra.yaml".toList]⟩) =
        ["/srv/extra.yaml".toList] := by
      decide +kernel
    refine ⟨by rw [h1, h2]; rfl, ?_⟩
    rw [h1, h2]
    refine .both (.copy (es := extra) (es' := extra) rfl rfl rfl rfl (fun q => ?_)) .nil
    cases Entries.getS extra q with
    | none => exact .none
    | some v => exact .some (.same v)
  · have h1 : Rung.files world' scope ⟨"common".toList, none, false, .paths [[.text "site.yaml".toList], [.text "common.yaml".toList]]⟩ =
        ["/h/data/site.yaml".toList, "/h/data/common.yaml".toList] := by
      decide +kernel
    have h2 : Rung.files there scope (Step.filled preset' ⟨"rest".toList, none, none, .paths [[.text "nothing.yaml".toList],
        [.text "either.yaml".toList], [.text "common.yaml".toList]]⟩) = ["/h/data/nothing.yaml".toList, "/h/data/either.yaml".toList, "/h/data/common.yaml".toList] := by
      decide +kernel
    refine ⟨by rw [h1, h2]; decide, ?_⟩
    rw [h1, h2]
    exact .both (.absent rfl rfl) (.more rfl (.both (.one rfl rfl) .nil))

theorem matched (p : Str) : ∀ f ∈ world'.glob p, world'.stat f = true := by
  intro f hf
  change f ∈ (if p = "/etc/prod/*.json".toList then ["/etc/prod/x.json".toList] else []) at hf
  split at hf
  · cases List.mem_singleton.1 hf
    rfl
  · cases hf

/-- Nothing changes with the other configuration file. -/
example {st st' : St} (hs : Session world' st) (hs' : Session there st') (k : Key) (o : Entries) (r : Res (Option Value)) :
    Gives there (nextInvocation st' scope none) k o r ↔ Gives world' (nextInvocation st scope none) k o r :=
  C122_files stateless (stepped_as laddered (p := preset) (ss := steps) rfl rfl (by nofun)) stepped same (by decide) matched dataDir pluginDir laddered.vars
    hs hs' none none k o r

end RungsKept122

end Hiera
