/- C38 for whole sessions: what is in a default hierarchy does not matter, unless it has errors. -/
import Verif.Props.Found

set_option autoImplicit false

namespace Hiera
open Value Spec World

namespace Spec

/-- In the given scope, the default hierarchy of a configuration is resolved to the given entries, or to an error. -/
def DefaultsAre (E : Env) (sc : Scope) (c : Cfg) (r : Res (List Entry)) : Prop :=
  ∃ n, refLevels E (ref E none n) ⟨sc, .call⟩ c c.defaultHierarchy = some r

/-- The same for the hierarchy. -/
def LevelsAre (E : Env) (sc : Scope) (c : Cfg) (r : Res (List Entry)) : Prop :=
  ∃ n, refLevels E (ref E none n) ⟨sc, .call⟩ c c.hierarchy = some r

end Spec

theorem sameFound_refl (E : Env) (p : Str) (es : List Entry) : SameFound E (withFiles E p E.readYaml E.readJson) es es where
  one := Iff.rfl
  found q := by
    refine ⟨_, _, bits_levels E q es, bits_levels _ q es, ?_⟩
    rw [List.forall₂_same]
    intro b hb
    obtain ⟨e, _, rfl⟩ := List.mem_map.1 hb
    exact .level (sameSources_refl E p e)

/-- C38, what the code does instead: two configurations that differ in their default hierarchies only, and whose default hierarchies have
no errors, give the same for all keys, in all sessions. There may be no default hierarchy in one of them. -/
theorem C38_session {E : Env} (he : StatelessEnv E) {sc : Scope} {p : Str} {c c' : Cfg}
    (hc : newCfg E.cfg E.configPath (E.readYaml E.configPath) = .ok c) (hc' : newCfg E.cfg p (E.readYaml p) = .ok c')
    (hd : c'.defaults = c.defaults) (hh : c'.hierarchy = c.hierarchy) {ds ds' : List Entry}
    (h1 : DefaultsAre E sc c (.ok ds)) (h2 : DefaultsAre E sc c' (.ok ds'))
    {s s' : St} (hs : Session E s) (hs' : Session (withFiles E p E.readYaml E.readJson) s')
    (ex ex' : Option ExplOpts) (k : Key) (o : Entries) (r : Res (Option Value)) :
    Gives (withFiles E p E.readYaml E.readJson) (nextInvocation s' sc ex') k o r ↔ Gives E (nextInvocation s sc ex) k o r := by
  rw [C81_session _ (statelessEnv_files he ..) ⟨c', hc'⟩ hs', C81_session _ he ⟨c, hc⟩ hs]
  obtain ⟨n₁, h1⟩ := h1
  obtain ⟨n₂, h2⟩ := h2
  have key : ∀ n m, max n₁ n₂ ≤ n → refAnswer (withFiles E p E.readYaml E.readJson) sc k o n m = refAnswer E sc k o n m := by
    intro n m hn
    have e1 := refLevels_le (ref_mono E none (Nat.le_trans (Nat.le_max_left n₁ n₂) hn)) ⟨sc, .call⟩ c c.defaultHierarchy _ h1
    have e2 := refLevels_le (ref_mono E none (Nat.le_trans (Nat.le_max_right n₁ n₂) hn)) ⟨sc, .call⟩ c' c'.defaultHierarchy _ h2
    refine refAnswer_alike_upto (shut_everything E sc) ?_ (by rw [e1, e2]; rfl) hc hc' trivial o m
    have same : refLevels E (ref E none n) ⟨sc, .call⟩ c' c'.hierarchy = refLevels E (ref E none n) ⟨sc, .call⟩ c c.hierarchy := by
      unfold refLevels
      rw [hd, hh]
    rw [same]
    match hx : refLevels E (ref E none n) ⟨sc, .call⟩ c c.hierarchy with
    | none => exact .inl ⟨none, rfl, rfl⟩
    | some (.panic e) => exact .inl ⟨some e, rfl, rfl⟩
    | some (.ok es) => exact .inr ⟨es, es, fun r r' C k st _ hr hC _ => refMerge_found_same hr hC k st (sameFound_refl E p es), rfl, rfl⟩
  constructor
  · rintro ⟨n, m, h⟩
    have := refAnswer_mono (Nat.le_max_left n (max n₁ n₂)) (Nat.le_refl m) _ h
    rw [key _ _ (Nat.le_max_right n _)] at this
    exact ⟨_, _, this⟩
  · rintro ⟨n, m, h⟩
    have := refAnswer_mono (Nat.le_max_left n (max n₁ n₂)) (Nat.le_refl m) _ h
    rw [← key _ _ (Nat.le_max_right n _)] at this
    exact ⟨_, _, this⟩

/-- C38: a default hierarchy with an error in it makes all lookups fail with that error, although it is not used for anything. -/
theorem C38_fails {E : Env} (he : StatelessEnv E) {sc : Scope} {c : Cfg} (hc : newCfg E.cfg E.configPath (E.readYaml E.configPath) = .ok c)
    {es : List Entry} (h1 : LevelsAre E sc c (.ok es)) {e : Err} (h2 : DefaultsAre E sc c (.panic e)) {s : St} (hs : Session E s)
    (ex : Option ExplOpts) {k : Key} (hk : k.root ≠ "lookup_options".toList) (o : Entries) (r : Res (Option Value)) :
    Gives E (nextInvocation s sc ex) k o r ↔ r = .panic e := by
  rw [C81_session _ he ⟨c, hc⟩ hs]
  obtain ⟨n₁, h1⟩ := h1
  obtain ⟨n₂, h2⟩ := h2
  have key : ∀ n m, max n₁ n₂ ≤ n → refAnswer E sc k o n m = some (.panic e) := by
    intro n m hn
    have e1 := refLevels_le (ref_mono E none (Nat.le_trans (Nat.le_max_left n₁ n₂) hn)) ⟨sc, .call⟩ c c.hierarchy _ h1
    have e2 := refLevels_le (ref_mono E none (Nat.le_trans (Nat.le_max_right n₁ n₂) hn)) ⟨sc, .call⟩ c c.defaultHierarchy _ h2
    unfold refAnswer refSite
    rw [if_neg hk, hc, Ans.of_ok_bind, e1, e2]
    rfl
  constructor
  · rintro ⟨n, m, h⟩
    have := refAnswer_mono (Nat.le_max_left n (max n₁ n₂)) (Nat.le_refl m) _ h
    rw [key _ _ (Nat.le_max_right n _)] at this
    cases this
    rfl
  · rintro rfl
    exact ⟨_, 0, key _ 0 (Nat.le_refl _)⟩

/-! ### Not vacuous -/

namespace Default38

def options (ds : List Value) : Value := .map [(s "version", .int 5), (s "hierarchy", .arr [entry "a" "a.yaml"]), (s "default_hierarchy", .arr ds)]

/-- `/h/hiera.yaml`, with a default hierarchy; `/h/none.yaml`, without; and `/h/wrong.yaml`, with one that has an error: a method in a
path, where none are allowed. -/
def world : Env := mk (options [entry "d" "d.yaml"])
  [("/h/none.yaml".toList, cfg [entry "a" "a.yaml"]), ("/h/wrong.yaml".toList, options [entry "d" "%{lookup('x')}"]),
    ("/h/data/a.yaml".toList, .map [(s "x", .int 1)]), ("/h/data/d.yaml".toList, .map [(s "x", .int 2), (s "y", .int 3)])]

theorem stateless : StatelessEnv world where
  top := .inl rfl
  mux := fun _ _ h => nomatch h
  fns := fun _ _ h => nomatch h
  plugins := fun _ _ _ h => nomatch h

def noVars : Scope := .map []

/-- Both configurations are read, they differ in their default hierarchies only, and these have no errors. -/
def compare (p : Str) : Bool :=
  match newCfg world.cfg world.configPath (world.readYaml world.configPath), newCfg world.cfg p (world.readYaml p) with
  | .ok c, .ok c' => decide (c'.defaults = c.defaults) && decide (c'.hierarchy = c.hierarchy) &&
    (match refLevels world (ref world none 1) ⟨noVars, .call⟩ c c.defaultHierarchy, refLevels world (ref world none 1) ⟨noVars, .call⟩ c' c'.defaultHierarchy with
      | some (.ok ds), some (.ok ds') => decide (ds.length = 1) && decide (ds'.length = 0)
      | _, _ => false)
  | _, _ => false

example (k : Key) (o : Entries) (r : Res (Option Value)) :
    Gives (withFiles world "/h/none.yaml".toList world.readYaml world.readJson) (newInvocation noVars none) k o r ↔ Gives world (newInvocation noVars none) k o r := by
  have h : compare "/h/none.yaml".toList = true := by decide +kernel
  unfold compare at h
  split at h
  · rename_i c c' hc hc'
    simp only [Bool.and_eq_true, decide_eq_true_eq] at h
    obtain ⟨⟨h1, h2⟩, h3⟩ := h
    split at h3
    · rename_i ds ds' e1 e2
      exact C38_session stateless hc hc' h1 h2 ⟨1, e1⟩ ⟨1, e2⟩ (.start noVars none) (.start noVars none) none none k o r
    · cases h3
  · cases h

/-- The configuration whose default hierarchy has an error. -/
def wrong : Env := withFiles world "/h/wrong.yaml".toList world.readYaml world.readJson

def failing (e : Err) : Bool :=
  match newCfg wrong.cfg wrong.configPath (wrong.readYaml wrong.configPath) with
  | .ok c => match refLevels wrong (ref wrong none 1) ⟨noVars, .call⟩ c c.hierarchy, refLevels wrong (ref wrong none 1) ⟨noVars, .call⟩ c c.defaultHierarchy with
    | some (.ok _), some (.panic e') => decide (e' = e)
    | _, _ => false
  | _ => false

example (k : Key) (hk : k.root ≠ "lookup_options".toList) (o : Entries) (r : Res (Option Value)) :
    Gives wrong (newInvocation noVars none) k o r ↔ r = .panic .methodsNotAllowed := by
  have h : failing .methodsNotAllowed = true := by decide +kernel
  unfold failing at h
  split at h
  · rename_i c hc
    split at h
    · rename_i es e' e1 e2
      rw [decide_eq_true_eq] at h
      subst h
      exact C38_fails (statelessEnv_files stateless ..) hc ⟨1, e1⟩ ⟨1, e2⟩ (.start noVars none) none hk o r
    · cases h
  · cases h

end Default38
end Hiera
