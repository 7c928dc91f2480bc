import Verif.Spec.RungsFound
import Verif.Props.SamePrinted

/-!
# C125: only the levels that have a key count for it
-/

set_option autoImplicit false

namespace Hiera

open Value Spec

theorem lacks_rung {E : Env} (hm : ∀ p, ∀ f ∈ E.glob p, E.stat f = true) {sc : Scope} {q : Str} {r : Rung} (h : WithoutKey E sc q r) :
    LacksAt E q (resolvedRung E sc r) := by
  refine ⟨r.reader, _, rfl, rfl, fun l hl hr => ?_⟩
  obtain ⟨f, hf, o, rfl⟩ := forall₂_left (resolved_files hm sc r) hl
  cases hs : E.stat f with
  | false => rw [hs] at hr; cases hr
  | true =>
    rw [refHash_rung]
    rcases h f hf hs with h | ⟨es, h, h'⟩
    · rw [h]; exact ⟨[], rfl, rfl⟩
    · rw [h]; exact ⟨es, rfl, h'⟩

theorem sameFound_for {E E' : Env} (hm : ∀ p, ∀ f ∈ E.glob p, E.stat f = true) (hm' : ∀ p, ∀ f ∈ E'.glob p, E'.stat f = true)
    {sc : Scope} {rs rs' : List Rung} (h : ∀ q, SameLevelsFor E E' sc q rs rs') (h1 : rs.length = 1 ↔ rs'.length = 1) :
    SameFound E E' (rs.map (resolvedRung E sc)) (rs'.map (resolvedRung E' sc)) := by
  refine ⟨by simpa using h1, fun q => ?_⟩
  clear h1
  replace h := h q
  induction h with
  | nil => exact ⟨[], [], .nil, .nil, .nil⟩
  | both h _ ih =>
    obtain ⟨bs, bs', h1, h2, h3⟩ := ih
    exact ⟨_, _, .other h1, .other h2, .cons (.level (sameSources_rung hm hm' h)) h3⟩
  | fewer h _ ih =>
    obtain ⟨bs, bs', h1, h2, h3⟩ := ih
    exact ⟨_, _, .silent (lacks_rung hm h) h1, h2, h3⟩
  | more h _ ih =>
    obtain ⟨bs, bs', h1, h2, h3⟩ := ih
    exact ⟨_, _, h1, .silent (lacks_rung hm' h) h2, h3⟩

/-- C125: two configuration files give the same for all keys if, for every key, the levels that have it stand for files that have the
same, one by one. -/
theorem C125_levels {E : Env} (he : StatelessEnv E) {sc : Scope} {q : Str} {ry rj : Str → FileRes} {rs rs' : List Rung} {p p' : Option Preset}
    {ss ss' : List Step} (h : Stepped E rs p ss) (h' : Stepped (withFiles E q ry rj) rs' p' ss')
    (hf : ∀ k, SameLevelsFor E (withFiles E q ry rj) sc k rs rs') (h1 : rs.length = 1 ↔ rs'.length = 1)
    (hm : ∀ p, ∀ f ∈ E.glob p, E.stat f = true)
    (hd : ¬Marked (theDataDir E)) (hp : ¬Marked (thePluginDir E)) (hv : ∀ x v, sc.get x = some v → Unmarked v)
    {s s' : St} (hs : Session E s) (hs' : Session (withFiles E q ry rj) s')
    (ex ex' : Option ExplOpts) (k : Key) (o : Entries) (r : Res (Option Value)) :
    Gives (withFiles E q ry rj) (nextInvocation s' sc ex') k o r ↔ Gives E (nextInvocation s sc ex) k o r := by
  have hc := newCfg_steps h
  have hc' := newCfg_steps h'
  rw [C81_session _ (statelessEnv_files he ..) ⟨_, hc'⟩ hs', C81_session _ he ⟨_, hc⟩ hs]
  have key : ∀ n m, refAnswer (withFiles E q ry rj) sc k o (n + 1) m = refAnswer E sc k o (n + 1) m := by
    intro n m
    have e := stepped_levels (sc := sc) h hd hp hv n hc
    have e' := stepped_levels (sc := sc) h' hd hp hv n hc'
    simp only [ref_none_files E q ry rj, refLevels_files E q ry rj] at e'
    exact refAnswer_alike (shut_everything E sc) (.inr ⟨_, _, fun r r' C k st _ hr hC _ =>
      refMerge_found_same hr hC k st (sameFound_for (E' := withFiles E q ry rj) hm hm hf h1), e.1, e'.1⟩) (by rw [e.2, e'.2]) hc hc' trivial o m
  constructor
  · rintro ⟨n, m, h⟩
    have := refAnswer_mono (Nat.le_succ n) (Nat.le_refl m) _ h
    rw [key] at this
    exact ⟨_, _, this⟩
  · rintro ⟨n, m, h⟩
    have := refAnswer_mono (Nat.le_succ n) (Nat.le_refl m) _ h
    rw [← key] at this
    exact ⟨_, _, this⟩

/-! ### Levels in another order -/

open Classical in
theorem sameLevels_filter {E E' : Env} {sc : Scope} {q : Str} (hs : ∀ r, SameFiles E E' sc r r) (hw : ∀ r, WithoutKey E sc q r → WithoutKey E' sc q r) :
    ∀ {rs rs' : List Rung}, rs.filter (fun r => ¬WithoutKey E sc q r) = rs'.filter (fun r => ¬WithoutKey E sc q r) → SameLevelsFor E E' sc q rs rs'
  | [], [], _ => .nil
  | r :: rs, rs', h => by
    by_cases hr : WithoutKey E sc q r
    · rw [List.filter_cons_of_neg (by simpa using hr)] at h
      exact .fewer hr (sameLevels_filter hs hw h)
    · induction rs' with
      | nil =>
        rw [List.filter_cons_of_pos (by simpa using hr)] at h
        cases h
      | cons r' rs' ih =>
        by_cases hr' : WithoutKey E sc q r'
        · rw [List.filter_cons_of_neg (a := r') (by simpa using hr')] at h
          exact .more (hw _ hr') (ih h)
        · rw [List.filter_cons_of_pos (by simpa using hr), List.filter_cons_of_pos (by simpa using hr')] at h
          injection h with h1 h2
          subst h1
          exact .both (hs _) (sameLevels_filter hs hw h2)
  | [], r' :: rs', h => by
    by_cases hr' : WithoutKey E sc q r'
    · rw [List.filter_cons_of_neg (a := r') (by simpa using hr')] at h
      exact .more (hw _ hr') (sameLevels_filter hs hw h)
    · rw [List.filter_cons_of_pos (a := r') (by simpa using hr')] at h
      cases h

open Classical in
theorem filter_perm {E : Env} {sc : Scope} {q : Str} {rs rs' : List Rung} (h : rs.Perm rs') (hn : NoKeyTwice E sc rs) :
    rs.filter (fun r => ¬WithoutKey E sc q r) = rs'.filter (fun r => ¬WithoutKey E sc q r) := by
  have hp : (rs.filter (fun r => ¬WithoutKey E sc q r)).Perm (rs'.filter (fun r => ¬WithoutKey E sc q r)) := h.filter _
  have hl : (rs.filter (fun r => ¬WithoutKey E sc q r)).Pairwise (fun _ _ => False) := by
    have := List.Pairwise.filter (fun r => decide ¬WithoutKey E sc q r) hn
    refine List.Pairwise.imp_of_mem ?_ this
    intro a b ha hb hab
    have ha := (List.mem_filter.1 ha).2
    have hb := (List.mem_filter.1 hb).2
    rcases hab q with h | h
    · simp [h] at ha
    · simp [h] at hb
  generalize rs.filter (fun r => ¬WithoutKey E sc q r) = xs at hp hl
  match xs, hl with
  | [], _ => exact hp.nil_eq
  | [x], _ => exact (List.singleton_perm.1 hp)
  | x :: y :: _, hl => exact ((List.pairwise_cons.1 hl).1 y (List.mem_cons_self ..)).elim

theorem files_self {E : Env} {sc : Scope} {q : Str} (hq : Hiera.dir q = Hiera.dir E.configPath) (r : Rung) :
    r.files (withFiles E q E.readYaml E.readJson) sc = r.files E sc := by
  unfold Rung.files Rung.dataDir
  simp only [hq]
  rfl

theorem sameFiles_self {E : Env} {sc : Scope} {q : Str} (hq : Hiera.dir q = Hiera.dir E.configPath) (r : Rung) :
    SameFiles E (withFiles E q E.readYaml E.readJson) sc r r := by
  refine ⟨by rw [files_self hq], ?_⟩
  rw [files_self hq]
  generalize r.files E sc = fs
  induction fs with
  | nil => exact .nil
  | cons f fs ih => exact .both (.one rfl rfl) ih

theorem sameLevels_perm {E : Env} {sc : Scope} {q : Str} (hq : Hiera.dir q = Hiera.dir E.configPath) {rs rs' : List Rung} (ho : rs.Perm rs')
    (hn : NoKeyTwice E sc rs) (k : Str) : SameLevelsFor E (withFiles E q E.readYaml E.readJson) sc k rs rs' :=
  sameLevels_filter (sameFiles_self hq) (fun r hr f hf => hr f (by rwa [files_self hq] at hf)) (filter_perm ho hn)

/-- C125: levels of which no two have a key in common may be in any order. -/
theorem C125_order {E : Env} (he : StatelessEnv E) {sc : Scope} {q : Str} {rs rs' : List Rung} {p p' : Option Preset}
    {ss ss' : List Step} (h : Stepped E rs p ss) (h' : Stepped (withFiles E q E.readYaml E.readJson) rs' p' ss') (hq : Hiera.dir q = Hiera.dir E.configPath)
    (ho : rs.Perm rs') (hn : NoKeyTwice E sc rs)
    (hm : ∀ p, ∀ f ∈ E.glob p, E.stat f = true)
    (hd : ¬Marked (theDataDir E)) (hp : ¬Marked (thePluginDir E)) (hv : ∀ x v, sc.get x = some v → Unmarked v)
    {s s' : St} (hs : Session E s) (hs' : Session (withFiles E q E.readYaml E.readJson) s')
    (ex ex' : Option ExplOpts) (k : Key) (o : Entries) (r : Res (Option Value)) :
    Gives (withFiles E q E.readYaml E.readJson) (nextInvocation s' sc ex') k o r ↔ Gives E (nextInvocation s sc ex) k o r :=
  C125_levels he h h' (sameLevels_perm hq ho hn) (by rw [ho.length_eq]) hm hd hp hv hs hs' ex ex' k o r

/-- C125 for the command line. -/
theorem C125_prints (A : Cli) (he : StatelessEnv A.types.env) {q : Str} {ry rj : Str → FileRes} {rs rs' : List Rung} {p p' : Option Preset}
    {ss ss' : List Step} (h : Stepped A.types.env rs p ss) (h' : Stepped (withFiles A.types.env q ry rj) rs' p' ss') (h1 : rs.length = 1 ↔ rs'.length = 1)
    (hm : ∀ p, ∀ f ∈ A.types.env.glob p, A.types.env.stat f = true) (hd : ¬Marked (theDataDir A.types.env)) (hp : ¬Marked (thePluginDir A.types.env))
    (o : CommandOptions) (hx : ¬Explains o)
    (hf : ∀ vars, createScope A.cli o = .ok vars → (∀ k, SameLevelsFor A.types.env (withFiles A.types.env q ry rj) (.nested A.scope (.map vars)) k rs rs') ∧
      ∀ x v, Scope.get (.nested A.scope (.map vars)) x = some v → Unmarked v)
    {s s' : St} (hs : Session A.types.env s) (hs' : Session (withFiles A.types.env q ry rj) s') (args : List Str) (out : Res (Bool × Str)) :
    (∃ n w, lookupAndRender (withEnv A (withFiles A.types.env q ry rj)) (eval (withFiles A.types.env q ry rj) n) o args s'.v = some (out, w)) ↔
      ∃ n w, lookupAndRender A (eval A.types.env n) o args s.v = some (out, w) :=
  C123_prints A he (statelessEnv_files he ..) ⟨_, newCfg_steps h⟩ ⟨_, newCfg_steps h'⟩ rfl rfl o hx hs hs' (fun vars hv k opts r =>
    C125_levels he h h' (hf vars hv).1 h1 hm hd hp (hf vars hv).2 hs hs' none none k opts r) args out

/-- C125 for the server. -/
theorem C125_served (A : Cli) (he : StatelessEnv A.types.env) {q : Str} {ry rj : Str → FileRes} {rs rs' : List Rung} {p p' : Option Preset}
    {ss ss' : List Step} (h : Stepped A.types.env rs p ss) (h' : Stepped (withFiles A.types.env q ry rj) rs' p' ss') (h1 : rs.length = 1 ↔ rs'.length = 1)
    (hm : ∀ p, ∀ f ∈ A.types.env.glob p, A.types.env.stat f = true) (hd : ¬Marked (theDataDir A.types.env)) (hp : ¬Marked (thePluginDir A.types.env))
    (base : CommandOptions) (hx : ¬Explains base) {v v' : View} (hv : Serving A base v) (hv' : Serving (withEnv A (withFiles A.types.env q ry rj)) base v')
    (path : Str) (params : List (Str × Str)) (req : List Str)
    (hf : ∀ vars, createScope A.cli (restOptions base params req) = .ok vars →
      (∀ k, SameLevelsFor A.types.env (withFiles A.types.env q ry rj) (.nested A.scope (.map vars)) k rs rs') ∧
      ∀ x v, Scope.get (.nested A.scope (.map vars)) x = some v → Unmarked v) (r : Response) :
    (∃ n w, serve (withEnv A (withFiles A.types.env q ry rj)) (eval (withFiles A.types.env q ry rj) n) base path params req v' = some (r, w)) ↔
      ∃ n w, serve A (eval A.types.env n) base path params req v = some (r, w) :=
  C123_served A he (statelessEnv_files he ..) ⟨_, newCfg_steps h⟩ ⟨_, newCfg_steps h'⟩ rfl rfl base hx hv hv' path params req
    (fun vars hvars _ _ hs hs' k opts r => C125_levels he h h' (hf vars hvars).1 h1 hm hd hp (hf vars hvars).2 hs hs' none none k opts r) r

namespace RungsFound125

open World

/-- A level with two files that have a key in common, and a level with a file that has another key. -/
def one : Step := ⟨"one".toList, none, none, .paths [[.text "a.yaml".toList], [.text "b.yaml".toList]]⟩
def two : Step := ⟨"two".toList, none, none, .path [.text "c.yaml".toList]⟩

def top : Rung := Step.filled none one
def low : Rung := Step.filled none two

def a : Entries := [(s "x", .arr [s "1"]), (s "y", s "%{lookup('z')}")]
def b : Entries := [(s "x", .arr [s "2"]), (s "lookup_options", .map [(s "x", .map [(s "merge", s "unique")])])]
def c : Entries := [(s "z", s "3 %{v}")]

def other : Str := "/h/other.yaml".toList

def files : List (Str × Value) := [("/h/data/a.yaml".toList, .map a), ("/h/data/b.yaml".toList, .map b), ("/h/data/c.yaml".toList, .map c)]

def world : Env := { mk (configSaid none [one, two]) ((other, configSaid none [two, one]) :: files) with functions := fun _ => none, pluginFn := fun _ _ => .ok none }

def scope : Scope := .map [(s "v", s "4")]

abbrev there : Env := withFiles world other world.readYaml world.readJson

theorem stateless : StatelessEnv world := ⟨.inl rfl, nofun, nofun, nofun⟩

theorem dataDir : ¬Marked (theDataDir world) := fun h => by
  have := (hasMarker_iff _).2 h; revert this; show hasMarker "data".toList = true → False; decide

theorem pluginDir : ¬Marked (thePluginDir world) := fun h => by
  have := (hasMarker_iff _).2 h; revert this; show hasMarker "plugin".toList = true → False; decide

theorem text_ok : ∀ t : Str, t ≠ [] → '%' ∉ t → textWritten [.text t] ≠ [] ∧ ∀ x ∈ [PathPiece.text t], x.Ok := fun t h1 h2 => by
  refine ⟨?_, fun x hx => ?_⟩
  · show t ++ [] ≠ []
    rw [List.append_nil]; exact h1
  · cases List.mem_singleton.1 hx
    exact h2

theorem stepped {E : Env} {ss : List Step} (h : E.readYaml E.configPath = .value (configSaid none ss)) (hs : ∀ r ∈ ss, r = one ∨ r = two)
    (hd : (ss.map Step.name).Nodup) : Stepped E (ss.map (Step.filled none)) none ss where
  config := h
  filled := rfl
  dir := nofun
  named := by
    intro r hr
    rcases hs r hr with rfl | rfl <;> decide
  distinct := hd
  texts := by
    intro r hr
    rcases hs r hr with rfl | rfl
    · refine ⟨by show [_, _] ≠ []; simp, fun p hp => ?_⟩
      change p ∈ [[.text "a.yaml".toList], [.text "b.yaml".toList]] at hp
      simp only [List.mem_cons, List.not_mem_nil, or_false] at hp
      rcases hp with rfl | rfl <;> exact text_ok _ (by decide) (by decide)
    · refine ⟨by show [_] ≠ []; simp, fun p hp => ?_⟩
      change p ∈ [[.text "c.yaml".toList]] at hp
      cases List.mem_singleton.1 hp
      exact text_ok _ (by decide) (by decide)
  mapped := by
    intro r hr x fs as p h
    rcases hs r hr with rfl | rfl <;> cases h

theorem here : Stepped world [top, low] none [one, two] := stepped (ss := [one, two]) rfl (by simp) (by decide)

theorem elsewhere : Stepped there [low, top] none [two, one] := stepped (ss := [two, one]) rfl (by simp) (by decide)

theorem apart : NoKeyTwice world scope [top, low] := by
  have h1 : top.files world scope = ["/h/data/a.yaml".toList, "/h/data/b.yaml".toList] := by decide +kernel
  have h2 : low.files world scope = ["/h/data/c.yaml".toList] := by decide +kernel
  refine List.pairwise_pair.2 (fun q => ?_)
  by_cases hq : q = "z".toList
  · refine .inl (fun f hf _ => ?_)
    subst hq
    rw [h1] at hf
    simp only [List.mem_cons, List.not_mem_nil, or_false] at hf
    rcases hf with rfl | rfl
    · exact .inr ⟨a, rfl, rfl⟩
    · exact .inr ⟨b, rfl, rfl⟩
  · refine .inr (fun f hf _ => ?_)
    rw [h2] at hf
    cases List.mem_singleton.1 hf
    refine .inr ⟨c, rfl, ?_⟩
    show Entries.getS [(s "z", s "3 %{v}")] q = none
    unfold Entries.getS
    simp [Entries.get, s]
    exact hq

/-- With the levels the other way round, everything is the same. -/
example {st st' : St} (hs : Session world st) (hs' : Session there st') (k : Key) (o : Entries) (r : Res (Option Value)) :
    Gives there (nextInvocation st' scope none) k o r ↔ Gives world (nextInvocation st scope none) k o r := by
  refine C125_order stateless here elsewhere (by decide +kernel) (.swap ..) apart (by nofun) dataDir pluginDir (fun x v h => ?_) hs hs' none none k o r
  have : v = s "4" := by
    change Entries.getS [(s "v", s "4")] x = some v at h
    unfold Entries.getS at h
    simp only [Entries.get, List.find?_cons, List.find?_nil] at h
    split at h <;> cases h
    rfl
  subst this
  exact unmarked_of_marked rfl

end RungsFound125

end Hiera
