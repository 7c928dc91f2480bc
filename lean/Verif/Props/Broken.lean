import Verif.Spec.Broken
import Verif.Props.RungsKept
import Verif.Props.SamePrinted

/-!
# C124: a data file that cannot be read makes every lookup fail
-/

set_option autoImplicit false

namespace Hiera

open Value Spec

theorem sound_at {E : Env} {r : Rung} {f : Str} (h : UsableFile E r f) (sc : Scope) (rec : Ref) (C : Ctx) (o : Str) :
    ∃ v, refAt E rec C lookupOptionsKey (resolvedRung E sc r) (.path o f (E.stat f)) = pure v := by
  cases hs : E.stat f with
  | false => exact ⟨_, rfl⟩
  | true =>
    have e : refAt E rec C lookupOptionsKey (resolvedRung E sc r) (.path o f true) = (do
        let h ← Ans.of (refHash E (resolvedRung E sc r) r.reader (refOpts (resolvedRung E sc r) (some (.path o f true))))
        match Entries.getS h lookupOptionsKey.root with
        | some v => refInterp E rec C true v
        | none => pure none) := rfl
    rw [e, refHash_rung]
    rcases h hs with h | ⟨es, h, hu⟩
    · rw [h]
      exact ⟨none, rfl⟩
    · rw [h]
      change ∃ v, (match Entries.getS es "lookup_options".toList with
        | some v => refInterp E rec C true v
        | none => pure none) = pure v
      cases hv : Entries.getS es "lookup_options".toList with
      | none => exact ⟨_, rfl⟩
      | some v => exact ⟨_, refInterp_unmarked true (unmarked_iff (hu v hv))⟩

theorem broken_at {E : Env} {r : Rung} {f : Str} {e : Err} (h : Broken E r f e) (sc : Scope) (rec : Ref) (C : Ctx) (k : Key) (o : Str) :
    refAt E rec C k (resolvedRung E sc r) (.path o f (E.stat f)) = Ans.fail e := by
  have hs : E.stat f = true := by cases h <;> assumption
  rw [hs]
  have e : refAt E rec C k (resolvedRung E sc r) (.path o f true) = (do
      let h ← Ans.of (refHash E (resolvedRung E sc r) r.reader (refOpts (resolvedRung E sc r) (some (.path o f true))))
      match Entries.getS h k.root with
      | some v => refInterp E rec C true v
      | none => pure none) := rfl
  rw [e, refHash_rung]
  cases h with
  | unread _ h => rw [h]; rfl
  | @notHash v _ h hv =>
    rw [h]
    cases v with
    | map es => exact absurd rfl (hv es)
    | _ => rfl

/-- The sources in order: all have an answer, or the first without one has this error. -/
inductive Outcome (e : Err) : List (Ans (Option Value)) → Bool → Prop
  | nil : Outcome e [] true
  | good {v : Option Value} {xs : List (Ans (Option Value))} {b : Bool} : Outcome e xs b → Outcome e (pure v :: xs) b
  | bad {xs : List (Ans (Option Value))} : Outcome e (Ans.fail e :: xs) false

theorem refFound_outcome {e : Err} {xs : List (Ans (Option Value))} {b : Bool} (h : Outcome e xs b) :
    (b = true ∧ ∃ vs, refFound xs = pure vs) ∨ (b = false ∧ refFound xs = Ans.fail e) := by
  induction h with
  | nil => exact .inl ⟨rfl, [], rfl⟩
  | bad => exact .inr ⟨rfl, rfl⟩
  | @good v _ _ _ ih =>
    rcases ih with ⟨hb, vs, h⟩ | ⟨hb, h⟩
    · refine .inl ⟨hb, v.toList ++ vs, ?_⟩
      rw [refFound, Ans.pure_bind, h, Ans.pure_bind]
    · refine .inr ⟨hb, ?_⟩
      rw [refFound, Ans.pure_bind, h]
      rfl

theorem refMerge_outcome {e : Err} {xs : List (Ans (Option Value))} {b : Bool} (h : Outcome e xs b) (os : Entries) :
    (b = true ∧ ∃ v, refMerge (.deep os) xs = pure v) ∨ (b = false ∧ refMerge (.deep os) xs = Ans.fail e) := by
  have many : ∀ xs, Outcome e xs b → (b = true ∧ ∃ v, (do let vs ← refFound xs; pure (refCombine (.deep os) vs) : Ans (Option Value)) = pure v) ∨
      (b = false ∧ (do let vs ← refFound xs; pure (refCombine (.deep os) vs) : Ans (Option Value)) = Ans.fail e) := fun xs h => by
    rcases refFound_outcome h with ⟨hb, vs, h⟩ | ⟨hb, h⟩
    · exact .inl ⟨hb, _, by rw [h, Ans.pure_bind]⟩
    · exact .inr ⟨hb, by rw [h]; rfl⟩
  match xs, h with
  | [], h => exact many _ h
  | [_], .good .nil => exact .inl ⟨rfl, _, rfl⟩
  | [_], .bad => exact .inr ⟨rfl, rfl⟩
  | _ :: _ :: _, h => exact many _ h

theorem outcome_sound {E : Env} {sc : Scope} {r : Rung} {rec : Ref} {C : Ctx} {e : Err} {ls : List Loc} {fs : List Str}
    (h : List.Forall₂ (fun l f => ∃ o, l = Loc.path o f (E.stat f)) ls fs) (hf : ∀ f ∈ fs, UsableFile E r f) :
    Outcome e (ls.map (refAt E rec C lookupOptionsKey (resolvedRung E sc r))) true := by
  induction h with
  | nil => exact .nil
  | cons h _ ih =>
    obtain ⟨o, rfl⟩ := h
    obtain ⟨v, hv⟩ := sound_at (hf _ (List.mem_cons_self ..)) sc rec C o
    rw [List.map_cons, hv]
    exact .good (ih (fun f hm => hf f (List.mem_cons_of_mem _ hm)))

theorem outcome_broken {E : Env} {sc : Scope} {r : Rung} {rec : Ref} {C : Ctx} {e : Err} {ls : List Loc} {fs as bs : List Str} {f : Str}
    (h : List.Forall₂ (fun l f => ∃ o, l = Loc.path o f (E.stat f)) ls fs) (he : fs = as ++ f :: bs) (hf : ∀ f ∈ as, UsableFile E r f) (hb : Broken E r f e) :
    Outcome e (ls.map (refAt E rec C lookupOptionsKey (resolvedRung E sc r))) false := by
  induction h generalizing as with
  | nil => cases as <;> cases he
  | cons h _ ih =>
    obtain ⟨o, rfl⟩ := h
    cases as with
    | nil =>
      cases he
      rw [List.map_cons, broken_at hb]
      exact .bad
    | cons a as =>
      cases he
      obtain ⟨v, hv⟩ := sound_at (hf _ (List.mem_cons_self ..)) sc rec C o
      rw [List.map_cons, hv]
      exact .good (ih rfl (fun f hm => hf f (List.mem_cons_of_mem _ hm)))

theorem entry_outcome {E : Env} {sc : Scope} {r : Rung} {rec : Ref} {C : Ctx} {e : Err} {b : Bool}
    (h : Outcome e ((r.place.resolved E sc (r.dataDir E sc)).map (refAt E rec C lookupOptionsKey (resolvedRung E sc r))) b) (os : Entries) :
    (b = true ∧ ∃ v, refEntry E rec C lookupOptionsKey (.deep os) (resolvedRung E sc r) = pure v) ∨
      (b = false ∧ refEntry E rec C lookupOptionsKey (.deep os) (resolvedRung E sc r) = Ans.fail e) := by
  have hl : (resolvedRung E sc r).locations = some (r.place.resolved E sc (r.dataDir E sc)) := rfl
  unfold refEntry
  rw [hl]
  generalize r.place.resolved E sc (r.dataDir E sc) = ls at h
  match ls, h with
  | [], h => exact refMerge_outcome h os
  | [l], h =>
    change Outcome e [refAt E rec C lookupOptionsKey (resolvedRung E sc r) l] b at h
    show (b = true ∧ ∃ v, refAt E rec C lookupOptionsKey (resolvedRung E sc r) l = pure v) ∨
      (b = false ∧ refAt E rec C lookupOptionsKey (resolvedRung E sc r) l = Ans.fail e)
    generalize refAt E rec C lookupOptionsKey (resolvedRung E sc r) l = x at h
    cases h with
    | good h => cases h; exact .inl ⟨rfl, _, rfl⟩
    | bad => exact .inr ⟨rfl, rfl⟩
  | _ :: _ :: _, h => exact refMerge_outcome h os

theorem hierarchy_outcome {E : Env} (hm : ∀ p, ∀ f ∈ E.glob p, E.stat f = true) {sc : Scope} {rec : Ref} {C : Ctx} {r : Rung} {f : Str} {e : Err}
    (hb : Broken E r f e) (os : Entries) : ∀ {rs : List Rung} {as bs : List (Rung × Str)}, filesIn E sc rs = as ++ (r, f) :: bs → (∀ x ∈ as, UsableFile E x.1 x.2) →
      Outcome e ((rs.map (resolvedRung E sc)).map (refEntry E rec C lookupOptionsKey (.deep os))) false
  | [], as, bs, h, _ => by cases as <;> cases h
  | q :: rs, as, bs, h, hf => by
    have good : (∀ f ∈ q.files E sc, UsableFile E q f) → Outcome e ((rs.map (resolvedRung E sc)).map (refEntry E rec C lookupOptionsKey (.deep os))) false →
        Outcome e (((q :: rs).map (resolvedRung E sc)).map (refEntry E rec C lookupOptionsKey (.deep os))) false := fun h1 h2 => by
      rcases entry_outcome (outcome_sound (e := e) (rec := rec) (C := C) (resolved_files hm sc q) h1) os with ⟨_, v, hv⟩ | ⟨hb, _⟩
      · rw [List.map_cons, List.map_cons, hv]
        exact .good h2
      · cases hb
    change (q.files E sc).map (fun f => (q, f)) ++ filesIn E sc rs = as ++ (r, f) :: bs at h
    rcases List.append_eq_append_iff.1 h with ⟨cs, h1, h2⟩ | ⟨cs, h1, h2⟩
    · subst h1
      exact good (fun f hm => hf (q, f) (List.mem_append_left _ (List.mem_map_of_mem hm)))
        (hierarchy_outcome hm hb os h2 (fun x hx => hf x (List.mem_append_right _ hx)))
    · cases cs with
      | nil =>
        rw [List.append_nil] at h1
        refine good (fun f hm => hf (q, f) (h1 ▸ List.mem_map_of_mem hm)) (hierarchy_outcome (as := []) hm hb os h2.symm (by simp))
      | cons c cs =>
        cases h2
        obtain ⟨xs, ys, hxy, hx, hy⟩ := List.map_eq_append_iff.1 h1
        obtain ⟨y, ys', rfl, hy1, hy2⟩ := List.map_eq_cons_iff.1 hy
        cases hy1
        rcases entry_outcome (outcome_broken (rec := rec) (C := C) (resolved_files hm sc r) hxy
          (fun f hm => hf (r, f) (hx ▸ List.mem_map_of_mem hm)) hb) os with ⟨hb, _⟩ | ⟨_, hv⟩
        · cases hb
        · rw [List.map_cons, List.map_cons, hv]
          exact .bad

/-- C124: if a data file of any level is there but cannot be read or is not a hash, then every lookup fails with an error that says so,
wherever in the hierarchy the file is and whether or not the key is found without it. With several such files, it is the first of
them, as long as the lookup options in the files before it have no expressions. -/
theorem C124_fails {E : Env} (he : StatelessEnv E) {sc : Scope} {rs : List Rung} {p : Option Preset} {ss : List Step} (h : Stepped E rs p ss)
    (hm : ∀ p, ∀ f ∈ E.glob p, E.stat f = true)
    (hd : ¬Marked (theDataDir E)) (hp : ¬Marked (thePluginDir E)) (hv : ∀ x v, sc.get x = some v → Unmarked v)
    {as bs : List (Rung × Str)} {q : Rung} {f : Str} {e : Err} (hf : filesIn E sc rs = as ++ (q, f) :: bs) (ha : ∀ x ∈ as, UsableFile E x.1 x.2)
    (hb : Broken E q f e) {s : St} (hs : Session E s) (ex : Option ExplOpts) {k : Key} (hk : k.root ≠ "lookup_options".toList) (o : Entries)
    (r : Res (Option Value)) : Gives E (nextInvocation s sc ex) k o r ↔ r = .panic e := by
  have hc := newCfg_steps h
  rw [C81_session _ he ⟨_, hc⟩ hs]
  have key : ∀ n m, refAnswer E sc k o (n + 1) m = some (.panic e) := by
    intro n m
    have l := stepped_levels (sc := sc) h hd hp hv n hc
    rw [refAnswer, if_neg hk, hc]
    change (do let x ← refSite E (ref E none (n + 1)) ⟨sc, .call⟩ _; _) = _
    rw [refSite, l.1, Ans.pure_bind, l.2, Ans.pure_bind, refHierarchy]
    rcases refMerge_outcome (hierarchy_outcome hm hb [] hf ha (rec := ref E none (n + 1)) (C := ⟨sc, .call⟩)) [] with ⟨hb, _⟩ | ⟨_, hv⟩
    · cases hb
    · rw [hv]
      rfl
  constructor
  · rintro ⟨n, m, h⟩
    have := refAnswer_mono (Nat.le_succ n) (Nat.le_refl m) _ h
    rw [key] at this
    cases this
    rfl
  · rintro rfl
    exact ⟨1, 0, key 0 0⟩

theorem finds_fails {A : Cli} {o : CommandOptions} {sc : Scope} {tp : Option Nat} {dv : Option Value} {a : Str} {as : List Str} {e : Err}
    (h : ∀ opts r, NameAnswer A.types.env sc opts a r ↔ r = .panic e) (ht : o.lookupAll = true → ∀ t, tp = some t → A.members t ≠ none)
    (r : Res (Option Value)) : Finds A o sc tp dv (a :: as) r ↔ r = .panic e := by
  have all : ∀ {opts typed} {r : Res Entries}, AllOf (NameAnswer A.types.env sc opts) typed (a :: as) r → r = .panic e := by
    intro opts typed r hr
    cases hr with
    | missing h1 => cases (h _ _).1 h1
    | found h1 => cases (h _ _).1 h1
    | later h1 => cases (h _ _).1 h1
    | fails h1 => cases (h _ _).1 h1; rfl
    | untyped h1 => cases (h _ _).1 h1
  constructor
  · intro hr
    cases hr with
    | first _ _ h1 h2 h3 =>
      cases h1 with
      | found h1 => cases (h _ _).1 h1
      | next h1 => cases (h _ _).1 h1
      | fails h1 => cases (h _ _).1 h1; cases h2; cases h3; rfl
    | all _ _ _ h1 => rw [all h1]
    | struct _ _ _ _ h1 => rw [all h1]
    | notStruct h1 h2 h3 => exact absurd h3 (ht h1 _ h2)
  · rintro rfl
    have hm := (mergeAsked_iff o.merge _).2 rfl
    have ha := (h (mergeOptions o.merge) (.panic e)).2 rfl
    cases hl : o.lookupAll with
    | false => exact .first hl hm (.fails ha) .fails .panic
    | true =>
      cases tp with
      | none => exact .all (r := .panic e) hl rfl hm (.fails ha)
      | some t =>
        cases hf : A.members t with
        | none => exact absurd hf (ht hl t rfl)
        | some f => exact .struct (r := .panic e) hl rfl hf hm (.fails ha)

/-- C124: `lookup` prints nothing and fails with the error, for all keys. -/
theorem C124_prints (A : Cli) (he : StatelessEnv A.types.env) {rs : List Rung} {p : Option Preset} {ss : List Step} (h : Stepped A.types.env rs p ss)
    (hm : ∀ p, ∀ f ∈ A.types.env.glob p, A.types.env.stat f = true)
    (hd : ¬Marked (theDataDir A.types.env)) (hp : ¬Marked (thePluginDir A.types.env)) (o : CommandOptions) (hx : ¬Explains o)
    {tp : Option Nat} {dv : Option Value} {vars : Entries} (hq : Prepared A o tp dv vars) (ht : o.lookupAll = true → ∀ t, tp = some t → A.members t ≠ none)
    (hv : ∀ x v, Scope.get (.nested A.scope (.map vars)) x = some v → Unmarked v)
    {as bs : List (Rung × Str)} {q : Rung} {f : Str} {e : Err} (hf : filesIn A.types.env (.nested A.scope (.map vars)) rs = as ++ (q, f) :: bs)
    (ha : ∀ x ∈ as, UsableFile A.types.env x.1 x.2) (hb : Broken A.types.env q f e) {s : St} (hs : Session A.types.env s)
    {a : Str} {k : Key} (ha' : newKey a = .ok k) (hk : k.root ≠ "lookup_options".toList) (args : List Str) (out : Res (Bool × Str)) :
    (∃ n w, lookupAndRender A (eval A.types.env n) o (a :: args) s.v = some (out, w)) ↔ out = .panic e := by
  rw [C83_prints A he ⟨_, newCfg_steps h⟩ hs o _ hx hq]
  have key : ∀ opts r, NameAnswer A.types.env (.nested A.scope (.map vars)) opts a r ↔ r = .panic e := by
    intro opts r
    have g := C124_fails he h hm hd hp hv hf ha hb hs none hk opts r
    rw [C81_session _ he ⟨_, newCfg_steps h⟩ hs] at g
    rw [← g]
    constructor
    · intro hr
      cases hr with
      | key h1 h2 => rw [ha'] at h1; cases h1; exact h2
      | bad h1 => rw [ha'] at h1; cases h1
    · exact fun hr => .key ha' hr
  simp only [finds_fails key ht, exists_eq_left]
  constructor
  · intro h
    cases h
    rfl
  · rintro rfl
    exact .fails

/-- C124: and the server answers with an error to all requests for a key. -/
theorem C124_served (A : Cli) (he : StatelessEnv A.types.env) {rs : List Rung} {p : Option Preset} {ss : List Step} (h : Stepped A.types.env rs p ss)
    (hm : ∀ p, ∀ f ∈ A.types.env.glob p, A.types.env.stat f = true)
    (hd : ¬Marked (theDataDir A.types.env)) (hp : ¬Marked (thePluginDir A.types.env)) (base : CommandOptions) (hx : ¬Explains base)
    {v : View} (hs : Serving A base v) {key : Str} (hkp : KeptPath ("/lookup/".toList ++ key)) (hkn : '\n' ∉ key) (params : List (Str × Str)) (req : List Str)
    {tp : Option Nat} {dv : Option Value} {vars : Entries} (hq : Prepared A (restOptions base params req) tp dv vars)
    (ht : base.lookupAll = true → ∀ t, tp = some t → A.members t ≠ none)
    (hv : ∀ x v, Scope.get (.nested A.scope (.map vars)) x = some v → Unmarked v)
    {as bs : List (Rung × Str)} {q : Rung} {f : Str} {e : Err} (hf : filesIn A.types.env (.nested A.scope (.map vars)) rs = as ++ (q, f) :: bs)
    (ha : ∀ x ∈ as, UsableFile A.types.env x.1 x.2) (hb : Broken A.types.env q f e)
    {k : Key} (ha' : newKey key = .ok k) (hk : k.root ≠ "lookup_options".toList) (r : Response) :
    (∃ n w, serve A (eval A.types.env n) base ("/lookup/".toList ++ key) params req v = some (r, w)) ↔ r.code = 500 ∧ r.body = [] := by
  rw [C83_served A he ⟨_, newCfg_steps h⟩ base hs hx key hkp hkn params req hq]
  obtain ⟨s, hss, rfl⟩ := hs.session
  have := C124_prints A he h hm hd hp (restOptions base params req) hx hq ht hv hf ha hb hss ha' hk []
  simp only [C83_prints A he ⟨_, newCfg_steps h⟩ hss (restOptions base params req) [key] hx hq] at this
  constructor
  · rintro ⟨x, out, h1, h2, h3⟩
    cases (this out).1 ⟨x, h1, h2⟩
    generalize hc : (r.code, r.body) = c at h3
    cases h3
    exact ⟨(Prod.mk.inj hc).1, (Prod.mk.inj hc).2⟩
  · rintro ⟨h1, h2⟩
    obtain ⟨x, h3, h4⟩ := (this _).2 rfl
    exact ⟨x, _, h3, h4, by rw [h1, h2]; exact .failed⟩

namespace Broken124

open World Rungs119

/-- The last file of the last level is a list. -/
def world : Env :=
  { Rungs119.world with
    readYaml := fun p => if p = "/h/data/common.yaml".toList then .value (.arr [s "conf"]) else Rungs119.world.readYaml p }

theorem stateless : StatelessEnv world := ⟨Rungs119.stateless.1, Rungs119.stateless.2, Rungs119.stateless.3, Rungs119.stateless.4⟩

theorem dataDir : ¬Marked (theDataDir world) := fun h => by
  have := (hasMarker_iff _).2 h; revert this; show hasMarker "data".toList = true → False; decide

theorem pluginDir : ¬Marked (thePluginDir world) := fun h => by
  have := (hasMarker_iff _).2 h; revert this; show hasMarker "plugin".toList = true → False; decide

theorem matched (p : Str) : ∀ f ∈ world.glob p, world.stat f = true := by
  intro f hf
  change f ∈ (if p = "/etc/prod/*.json".toList then ["/etc/prod/x.json".toList] else []) at hf
  split at hf
  · cases List.mem_singleton.1 hf
    rfl
  · cases hf

def roles : Rung := ⟨"roles".toList, none, false, .mapped "roles".toList [] "role".toList [.text "role/".toList, .var "role".toList [], .text ".yaml".toList]⟩
def more : Rung := ⟨"extra".toList, some [.text "/etc/".toList, .var "env".toList []], true, .glob [.text "*.json".toList]⟩
def rest : Rung := ⟨"common".toList, none, false, .paths [[.text "site.yaml".toList], [.text "common.yaml".toList]]⟩

theorem all : filesIn world scope rungs = [(roles, "/h/data/role/web.yaml".toList), (roles, "/h/data/role/db.yaml".toList), (more, "/etc/prod/x.json".toList),
    (rest, "/h/data/site.yaml".toList)] ++ (rest, "/h/data/common.yaml".toList) :: [] := by
  have h1 : roles.files world scope = ["/h/data/role/web.yaml".toList, "/h/data/role/db.yaml".toList] := by decide +kernel
  have h2 : more.files world scope = ["/etc/prod/x.json".toList] := by decide +kernel
  have h3 : rest.files world scope = ["/h/data/site.yaml".toList, "/h/data/common.yaml".toList] := by decide +kernel
  show (roles.files world scope).map _ ++ ((more.files world scope).map _ ++ ((rest.files world scope).map _ ++ [])) = _
  rw [h1, h2, h3]
  rfl

theorem usable : ∀ x ∈ [(roles, "/h/data/role/web.yaml".toList), (roles, "/h/data/role/db.yaml".toList), (more, "/etc/prod/x.json".toList),
    (rest, "/h/data/site.yaml".toList)], UsableFile world x.1 x.2 := by
  intro x hx
  simp only [List.mem_cons, List.not_mem_nil, or_false] at hx
  rcases hx with rfl | rfl | rfl | rfl
  · exact fun _ => .inr ⟨web, rfl, nofun⟩
  · exact fun _ => .inr ⟨db, rfl, nofun⟩
  · exact fun _ => .inr ⟨extra, rfl, nofun⟩
  · exact fun h => nomatch h

theorem stepped : Stepped world rungs preset steps := stepped_as laddered rfl rfl (by nofun)

/-- `conf` has values in three files before it, and yet its lookup fails. -/
example {st : St} (hs : Session world st) (r : Res (Option Value)) :
    Gives world (nextInvocation st scope none) ⟨"conf".toList, [.name "conf".toList]⟩ [] r ↔ r = .panic (.notHash "/h/data/common.yaml".toList) :=
  C124_fails stateless stepped matched dataDir pluginDir laddered.vars all usable (.notHash rfl rfl nofun) hs none (by decide) [] r

def shell : Cli := withEnv RungsShell119.shell world

/-- `lookup --vars vars.yaml conf port`. -/
example (out : Res (Bool × Str)) :
    (∃ n w, lookupAndRender shell (eval world n) RungsShell119.options ("conf".toList :: ["port".toList]) (newInvocation shell.scope none).v = some (out, w)) ↔
      out = .panic (.notHash "/h/data/common.yaml".toList) :=
  C124_prints shell stateless stepped matched dataDir pluginDir RungsShell119.options (by unfold Explains; decide) (vars := vars)
    ⟨rfl, rfl, by decide +kernel⟩ nofun laddered.vars all usable (.notHash rfl rfl nofun) (.start shell.scope none)
    (k := ⟨"conf".toList, [.name "conf".toList]⟩) rfl (by decide) _ out

example (r : Response) :
    (∃ n w, serve shell (eval world n) RungsShell119.options ("/lookup/".toList ++ "conf".toList) [] [] (newInvocation shell.scope none).v = some (r, w)) ↔
      r.code = 500 ∧ r.body = [] :=
  C124_served shell stateless stepped matched dataDir pluginDir RungsShell119.options (by unfold Explains; decide) .start
    ((keptPath_iff _).1 (by decide +kernel)) (by decide) [] [] (vars := vars)
    ⟨rfl, rfl, by decide +kernel⟩ nofun laddered.vars all usable (.notHash rfl rfl nofun) (k := ⟨"conf".toList, [.name "conf".toList]⟩) rfl (by decide) r

end Broken124

end Hiera
