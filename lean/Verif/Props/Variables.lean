/- C99: answers depend only on the variables that are referred to. -/
import Verif.Lemmas.Variables

set_option autoImplicit false

namespace Hiera
open Value Spec World

theorem answers_variables {E : Env} {T : Str → Prop} {K : Referent → Prop} {U : Prop} {c : Cfg} (hK : Contained E T K) (hU : AskedThrough E U)
    (hc : newCfg E.cfg E.configPath (E.readYaml E.configPath) = .ok c) (hm : CfgMentions T K c)
    (hu : ∀ e ∈ c.defaults :: c.hierarchy, ∀ n, e.function = some (.lookupKey, n) → n = "scope".toList ∨ Marked n → U)
    {sc sc' : Scope} (ha : SameVars T K U sc sc') {k : Key} (hk : K (.key k.root)) (o : Entries) (n m : Nat) :
    refAnswer E sc k o n m = refAnswer E sc' k o n m := by
  have hC : Alongside T K U ⟨sc, .call⟩ ⟨sc', .call⟩ := ⟨rfl, ha⟩
  have entry : ∀ e ∈ c.defaults :: c.hierarchy, EntryMentions T K e → OpenEntry T K U e :=
    fun e he hm => ⟨fun kind n hf => .inl (hm.function kind n hf), hu e he⟩
  have any : ∀ e, EntryMentions T K e → OpenEntry T K True e :=
    fun e hm => ⟨fun kind n hf => .inl (hm.function kind n hf), fun _ _ _ => trivial⟩
  have h0 := ref_level (T := T) (K := K) (U := U) hK hU (x := none) (fun _ h => nomatch h) n
  have h1 := refLevels_level hK h0 hC hm.defaults (entry _ (List.mem_cons_self ..) hm.defaults) (es := c.hierarchy)
    (fun e he => ⟨hm.hierarchy e he, entry e (List.mem_cons_of_mem _ he) (hm.hierarchy e he)⟩)
  have h2 := refLevels_level hK h0 hC hm.defaults (any _ hm.defaults) (es := c.defaultHierarchy)
    (fun e he => ⟨hm.defaultHierarchy e he, any e (hm.defaultHierarchy e he)⟩)
  unfold refAnswer
  split
  · rfl
  · rw [hc]
    have site : Alike (fun x => OpenSite T K U (some x)) (refSite E (ref E none n) ⟨sc, .call⟩ c) (refSite E (ref E none n) ⟨sc', .call⟩ c) := by
      unfold refSite
      refine .bind h1 (fun es hes => .bind h2 (fun _ _ => ?_))
      have hf : ∀ e ∈ es, e.function = some (.lookupKey, "scope".toList) → U := fun e he hf => (hes e he).scope _ hf (.inl rfl)
      refine .bind (refHierarchy_level hK hU.loads h0 hC (k := lookupOptionsKey) hK.options _ hf) (fun lo hlo => .pure ?_)
      intro y hy
      cases hy
      exact ⟨hf, asMap_clean hlo⟩
    exact (Alike.bind (R := CleanO T) site (fun x hx => refLookup_level hK hU (ref_level hK hU hx m) hC hx hk o)).1

theorem askedThrough {E : Env} (he : StatelessEnv E) (c : Cfg) : AskedThrough E (ScopeAsData E c) where
  loads := .loads
  mux := fun _ => .mux
  top := by rcases he.top with h | ⟨h, _⟩ <;> rw [h] <;> simp

/-- C99: what a lookup of a key gives depends only on the variables that the configuration refers to, and that are referred to by the
values in reach of the key. Whatever other variables there are, and whatever their values are, it gives the same, in all sessions. -/
theorem C99_variables {E : Env} (he : StatelessEnv E) {c : Cfg} (hc : newCfg E.cfg E.configPath (E.readYaml E.configPath) = .ok c)
    {T : Str → Prop} {K : Referent → Prop} (hK : Contained E T K) (hm : CfgMentions T K c) {sc sc' : Scope}
    (ha : SameVars T K (ScopeAsData E c) sc sc') {s s' : St} (hs : Session E s) (hs' : Session E s') (ex ex' : Option ExplOpts)
    {k : Key} (hk : K (.key k.root)) (o : Entries) (r : Res (Option Value)) :
    Gives E (nextInvocation s' sc' ex') k o r ↔ Gives E (nextInvocation s sc ex) k o r := by
  rw [C81_session _ he ⟨c, hc⟩ hs', C81_session _ he ⟨c, hc⟩ hs]
  have key := answers_variables hK (askedThrough he c) hc hm (fun e hm n hf hn => .entry hm hf hn) ha hk o
  simp only [Answer, key]

/-- C99 where nothing refers to variables, and they are no data: it gives the same with any variables at all. -/
theorem C99_none {E : Env} (he : StatelessEnv E) {c : Cfg} (hc : newCfg E.cfg E.configPath (E.readYaml E.configPath) = .ok c)
    {T : Str → Prop} {K : Referent → Prop} (hK : Contained E T K) (hm : CfgMentions T K c) (hv : ∀ n, ¬K (.var n))
    (hd : ¬ScopeAsData E c) (sc sc' : Scope) {s s' : St} (hs : Session E s) (hs' : Session E s') (ex ex' : Option ExplOpts)
    {k : Key} (hk : K (.key k.root)) (o : Entries) (r : Res (Option Value)) :
    Gives E (nextInvocation s' sc' ex') k o r ↔ Gives E (nextInvocation s sc ex) k o r :=
  C99_variables he hc hK hm ⟨fun n h => (hv n h).elim, fun h => (hd h).elim⟩ hs hs' ex ex' hk o r

/-! ### A concrete case -/

namespace Variables99
open Acyclic59 (T text inert tidy_text tidy_plain no_refs text_refers)

/-- A level whose file depends on a variable, and another one. -/
def levels : List Value := [entry "role" "%{role}.yaml", entry "c" "c.yaml"]

def world : Env := mk (cfg levels)
  [("/h/data/web.yaml".toList, .map [(s "x", .str text)]), ("/h/data/c.yaml".toList, .map [(s "y", s "text"), (s "z", s "%{w}")])]

/-- Two scopes that have the same for `role` and `v`. In the second one, other variables have other values, and one of them
has a value that refers to itself. -/
def scope : Scope := .map [(s "role", s "web"), (s "v", s "nine"), (s "w", s "double")]

def scope' : Scope := .map [(s "w", s "%{w}"), (s "v", s "nine"), (s "y", s "not this"), (s "role", s "web")]

/-- The keys `x` and `y`, the lookup options, and the variables `role` and `v`. -/
def K : Referent → Prop
  | .key r => r ∈ ["x".toList, "y".toList, "lookup_options".toList]
  | .var n => n ∈ ["role".toList, "v".toList]

theorem refersIn_plain {x : Str} (h : T x) : RefersIn T K x := ⟨tidy_plain h, fun _ _ _ _ hs he _ _ => (no_refs h hs he).elim⟩

theorem refersIn_text : RefersIn T K text := by
  refine ⟨tidy_text, fun ts e x i hts he hx h => ?_⟩
  rcases text_refers hts he hx h with rfl | rfl <;> simp [K]

theorem mentions_plain {x : Str} (h : T x) : Mentions K x := (refersIn_plain h).2

theorem mentions_role : Mentions K "%{role}.yaml".toList := by
  intro ts e x i hts he hx h
  have ht : tokens "%{role}.yaml".toList = [.expr "role".toList, .chr '.', .chr 'y', .chr 'a', .chr 'm', .chr 'l'] := by decide +kernel
  rw [splits_unique hts (tokens_splits _), ht] at he
  simp only [List.mem_cons, Tok.expr.injEq, reduceCtorEq, List.mem_nil_iff, or_false] at he
  subst he
  have hm : methodMatch (trimSpace "role".toList) = none := by decide +kernel
  have hk : newKey (trimSpace "role".toList) = .ok ⟨"role".toList, [.name "role".toList]⟩ := by decide +kernel
  rw [trimmed_unique hx] at hm hk
  cases h with
  | key hc _ _ => rw [(methodMatch_iff _ _ _).2 hc] at hm; cases hm
  | scope hc _ => rw [(methodMatch_iff _ _ _).2 hc] at hm; cases hm
  | var _ hn => rw [hk] at hn; cases hn; simp [K, Key.root]

theorem files_within {p : Str} {es : Entries} {q : Str} {v : Value} (h : world.readYaml p = .value (.map es)) (hq : K (.key q))
    (hg : Entries.getS es q = some v) : WithinV T K v := by
  have key : ∀ w ∈ [cfg levels, .map [(s "x", .str text)], .map [(s "y", s "text"), (s "z", s "%{w}")]],
      ∀ q ∈ ["x".toList, "y".toList, "lookup_options".toList],
      (match w with
        | .map es => match Entries.getS es q with
          | none => true
          | some v => decide (v = .str text) || decide (v = s "text")
        | _ => true) = true := by decide +kernel
  have hm : Value.map es ∈ [cfg levels, .map [(s "x", .str text)], .map [(s "y", s "text"), (s "z", s "%{w}")]] := by
    simp only [world, mk] at h
    split at h
    · injection h with h; rw [← h]; simp
    · split at h
      · rename_i v hv
        injection h with h
        subst h
        simp only [assoc] at hv
        (repeat' split at hv) <;> (cases hv; first | done | simp [cfg])
      · cases h
  have := key _ hm q hq
  dsimp only at this
  rw [hg] at this
  simp only [Bool.or_eq_true, decide_eq_true_eq] at this
  rcases this with rfl | rfl
  · intro x hx; cases hx; exact refersIn_text
  · intro x hx; cases hx; exact refersIn_plain (by decide)

theorem contained : Contained world T K where
  inert := inert
  text := fun v h => by cases v <;> first | exact clean_str.1 h | exact inert.nil
  options := by simp [K]
  again := by
    have hk : ∀ r ∈ ["x".toList, "y".toList, "lookup_options".toList], newKey r = .ok ⟨r, [.name r]⟩ := by decide +kernel
    intro r k hr h
    rw [hk r hr] at h
    cases h
    exact hr
  yaml := fun _ _ _ _ h hq hg => files_within h hq hg
  json := fun _ _ _ _ h => nomatch h
  hash := fun _ _ _ _ _ h => by obtain ⟨n, h | ⟨p, h⟩⟩ := h <;> cases h
  dig := fun _ _ _ h => by obtain ⟨n, h | ⟨p, h⟩⟩ := h <;> cases h
  env := by
    intro q v _ h x hx
    unfold envLookup at h
    split at h
    · cases h
      cases hx with
      | key h => cases h
      | val h => cases h
    · split at h <;> cases h
  custom := fun f o q h => by rcases h with ⟨n, h | ⟨p, h⟩⟩ | h | ⟨fs, h, _⟩ <;> cases h
  conv := fun _ _ _ _ h _ e => by cases e; exact h

/-- A text of the configuration: without expressions, or the one that there is. -/
def okText (x : Str) : Bool := decide (T x) || decide (x = "%{role}.yaml".toList)

def okEntry (e : Entry) : Bool :=
  (match e.function with | none => true | some (k, n) => decide (T n) && decide (k ≠ .lookupKey)) && okText e.dataDir && okText e.pluginDir &&
  e.options.isNone && (match e.locations with | none => true | some ls => ls.all (fun l => match l with | .path o _ _ => okText o | _ => false))

theorem okText_mentions {x : Str} (h : okText x = true) : Mentions K x := by
  simp only [okText, Bool.or_eq_true, decide_eq_true_eq] at h
  rcases h with h | rfl
  · exact mentions_plain h
  · exact mentions_role

theorem okEntry_mentions {e : Entry} (h : okEntry e = true) : EntryMentions T K e := by
  simp only [okEntry, Bool.and_eq_true] at h
  obtain ⟨⟨⟨⟨h1, h2⟩, h3⟩, h4⟩, h5⟩ := h
  refine ⟨fun kind n hf => ?_, okText_mentions h2, okText_mentions h3, fun os ho => ?_, fun ls hl l hm => ?_⟩
  · rw [hf] at h1
    simp only [Bool.and_eq_true, decide_eq_true_eq] at h1
    exact refersIn_plain h1.1
  · rw [ho] at h4; cases h4
  · rw [hl] at h5
    have := List.all_eq_true.1 h5 l hm
    cases l with
    | path o _ _ => exact okText_mentions this
    | _ => cases this

theorem config : ∃ c, newCfg world.cfg world.configPath (world.readYaml world.configPath) = .ok c ∧
    ∀ e ∈ c.defaults :: c.hierarchy ++ c.defaultHierarchy, okEntry e = true := by
  have h : (match newCfg world.cfg world.configPath (world.readYaml world.configPath) with
    | .ok c => (c.defaults :: c.hierarchy ++ c.defaultHierarchy).all okEntry
    | .panic _ => false) = true := by decide +kernel
  split at h
  · rename_i c hc; exact ⟨c, hc, List.all_eq_true.1 h⟩
  · cases h

theorem mentions {c : Cfg} (h : ∀ e ∈ c.defaults :: c.hierarchy ++ c.defaultHierarchy, okEntry e = true) : CfgMentions T K c :=
  ⟨okEntry_mentions (h _ (by simp)), fun e he => okEntry_mentions (h e (by simp [he])), fun e he => okEntry_mentions (h e (by simp [he]))⟩

theorem no_data {c : Cfg} (h : ∀ e ∈ c.defaults :: c.hierarchy ++ c.defaultHierarchy, okEntry e = true) : ¬ScopeAsData world c := by
  intro hd
  cases hd with
  | loads h => obtain ⟨n, h | ⟨p, h⟩⟩ := h <;> cases h
  | mux h => cases h
  | entry he hf _ =>
    have := h _ (List.mem_append_left _ he)
    simp only [okEntry, Bool.and_eq_true] at this
    have h1 := this.1.1.1.1
    rw [hf] at h1
    simp at h1

theorem same {U : Prop} (hU : ¬U) : SameVars T K U scope scope' := by
  refine ⟨fun n hn => ?_, fun h => (hU h).elim⟩
  have key : ∀ n ∈ ["role".toList, "v".toList], scope'.get n = scope.get n ∧
      (match scope.get n with | none => true | some v => decide (v = s "web" ∨ v = s "nine")) = true := by decide +kernel
  obtain ⟨h1, h2⟩ := key n hn
  refine ⟨h1, fun v hv => ?_⟩
  rw [hv] at h2
  rcases of_decide_eq_true h2 with rfl | rfl <;> (intro x hx; cases hx; exact refersIn_plain (by decide))

theorem stateless : StatelessEnv world where
  top := .inl rfl
  mux := fun _ _ h => nomatch h
  fns := fun _ _ h => nomatch h
  plugins := fun _ _ _ h => nomatch h

/-- So the lookup of `x` gives the same with the variables of the second scope. -/
example : Gives world (newInvocation scope' none) ⟨"x".toList, [.name "x".toList]⟩ [] (.ok (some (s "text of nine"))) := by
  have h : ((eval world 8).lookup ⟨"x".toList, [.name "x".toList]⟩ [] (newInvocation scope none)).map (·.1) =
      some (.ok (some (s "text of nine"))) := by decide +kernel
  obtain ⟨⟨r, t⟩, ha, rfl⟩ := Option.map_eq_some_iff.1 h
  obtain ⟨c, hc, hok⟩ := config
  exact (C99_variables stateless hc contained (mentions hok) (same (no_data hok)) (.start scope none) (.start scope' none) none none
    (k := ⟨"x".toList, [.name "x".toList]⟩) (by simp [K, Key.root]) [] _).2 ⟨8, t, ha⟩

/-- And the key `z`, which refers to another variable, does not: in the first scope it has a value. -/
example : Gives world (newInvocation scope none) ⟨"z".toList, [.name "z".toList]⟩ [] (.ok (some (s "double"))) ∧
    ((eval world 8).lookup ⟨"z".toList, [.name "z".toList]⟩ [] (newInvocation scope' none)).map (·.1) ≠ some (.ok (some (s "double"))) := by
  have h : ((eval world 8).lookup ⟨"z".toList, [.name "z".toList]⟩ [] (newInvocation scope none)).map (·.1) =
      some (.ok (some (s "double"))) := by decide +kernel
  have h' : ((eval world 8).lookup ⟨"z".toList, [.name "z".toList]⟩ [] (newInvocation scope' none)).map (·.1) ≠
      some (.ok (some (s "double"))) := by decide +kernel
  obtain ⟨⟨r, t⟩, ha, rfl⟩ := Option.map_eq_some_iff.1 h
  exact ⟨⟨8, t, ha⟩, h'⟩

end Variables99

end Hiera
