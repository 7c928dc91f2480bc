/- C48, C52: the REST server. -/
import Verif.Model.Rest
import Verif.Model.RestVars
import Verif.Props.Cli
import Verif.Lemmas.Path

set_option autoImplicit false

namespace Hiera
open Value Spec World

/-! ### C52 -/

/-- The type, default value and variables of a request are all right. -/
structure Spec.Prepared (A : Cli) (o : CommandOptions) (tp : Option Nat) (dv : Option Value) (scope : Entries) : Prop where
  type : typeOf A.types.env o.type = .ok tp
  default : defaultOf A.cli o.default = .ok dv
  scope : createScope A.cli o = .ok scope

/-- The lookup on behalf of a request. -/
def Spec.requestLookup (A : Cli) (rec : Rec) (o : CommandOptions) (key : Str) (tp : Option Nat) (dv : Option Value) (scope : Entries) (v : View) :
    Option (Res (Option Value) × St) :=
  lookup2 A.types rec [key] tp dv none none (mergeOptions o.merge) none (nextInvocation { v := v } (invocationScope A.scope (some scope)) none)

/-- What a request answers, given the outcome of its lookup. -/
inductive Spec.Answers (A : Cli) : Res (Option Value) → Response → Prop
  | found {v out} : renderTo A.render "json".toList (.value v) = .ok out → Answers A (.ok (some v)) ⟨200, out⟩
  | unrendered {v e} : renderTo A.render "json".toList (.value v) = .panic e → Answers A (.ok (some v)) ⟨500, []⟩
  | nothing : Answers A (.ok none) ⟨404, []⟩
  | failed {e} : Answers A (.panic e) ⟨500, []⟩

/-- All values of a parameter of a request, in order. -/
inductive Spec.AllParams : List (Str × Str) → Str → List Str → Prop
  | nil {k : Str} : AllParams [] k []
  | value {k v : Str} {ps : List (Str × Str)} {vs : List Str} : AllParams ps k vs → AllParams ((k, v) :: ps) k (v :: vs)
  | other {k k' v : Str} {ps : List (Str × Str)} {vs : List Str} : k' ≠ k → AllParams ps k vs → AllParams ((k', v) :: ps) k vs

theorem hasPrefix_append (p rest : Str) : hasPrefix p (p ++ rest) = true := by rw [hasPrefix_iff]; exact ⟨rest, rfl⟩

/-- A path that the server does not redirect: its elements are neither empty nor `.` nor `..`, and there may be a slash at its
end. -/
def Spec.KeptPath (p : Str) : Prop :=
  ∃ es : List Str, (∀ e ∈ es, e ≠ [] ∧ '/' ∉ e ∧ e ≠ ".".toList ∧ e ≠ "..".toList) ∧
    ((es ≠ [] ∧ p = es.flatMap (fun e => '/' :: e)) ∨ p = es.flatMap (fun e => '/' :: e) ++ "/".toList)

theorem joinSlash_flat (es : List Str) (h : es ≠ []) : '/' :: joinSlash es = es.flatMap (fun e => '/' :: e) := by
  induction es with
  | nil => exact absurd rfl h
  | cons e es ih =>
    cases es with
    | nil => simp [joinSlash]
    | cons f fs => rw [joinSlash, List.flatMap_cons, ← ih (by simp)] <;> simp

theorem clean_kept {es : List Str} (h : RootElems es) : clean (es.flatMap (fun e => '/' :: e) ++ "/".toList) = '/' :: joinSlash es ∧
    (es ≠ [] → clean (es.flatMap (fun e => '/' :: e)) = '/' :: joinSlash es) := by
  have hd : ['.', '.'] ∉ es := fun hm => (h _ hm).2 rfl
  have hs : solid es = es := List.filter_eq_self.2 (fun e he => by
    have := (h e he).1
    simp only [ne_eq, decide_eq_true_eq]
    exact ⟨this.1, this.2.2⟩)
  have sp : ∀ es : List Str, (∀ e ∈ es, '/' ∉ e) → splitSlash [] (es.flatMap (fun e => '/' :: e)) = [] :: es := by
    intro es hes
    cases es with
    | nil => rfl
    | cons e es =>
      rw [← joinSlash_flat _ (by simp), splitSlash, if_pos rfl, splitSlash_join _ (by simp) hes]
  have hns : ∀ e ∈ es, '/' ∉ e := fun e he => (h e he).1.2.1
  constructor
  · unfold clean
    have ha : isAbs (es.flatMap (fun e => '/' :: e) ++ "/".toList) = true := by
      cases es <;> rfl
    simp only [ha, if_true]
    rw [show es.flatMap (fun e => '/' :: e) ++ "/".toList = es.flatMap (fun e => '/' :: e) ++ '/' :: [] from rfl, splitSlash_two, sp es hns,
      cleanElems_solid]
    · rw [show [] :: es ++ splitSlash [] [] = [] :: (es ++ [[]]) from rfl]
      have : solid ([] :: (es ++ [[]])) = es := by
        rw [show solid ([] :: (es ++ [[]])) = solid (es ++ [[]]) from rfl, solid, List.filter_append]
        rw [show es.filter _ = solid es from rfl, hs]
        simp
      rw [this]
      rfl
    · simp [splitSlash, hd]
  · intro hne
    unfold clean
    have ha : isAbs (es.flatMap (fun e => '/' :: e)) = true := by
      cases es with
      | nil => exact absurd rfl hne
      | cons => rfl
    simp only [ha, if_true]
    rw [sp es hns, cleanElems_solid _ _ _ (by simp [hd]), show solid ([] :: es) = solid es from rfl, hs]
    rfl

theorem cleanPath_abs (q : Str) : cleanPath ('/' :: q) =
    if ('/' :: q).getLast? = some '/' ∧ clean ('/' :: q) ≠ ['/'] then clean ('/' :: q) ++ ['/'] else clean ('/' :: q) := rfl

theorem keptPath_iff (p : Str) : cleanPath p = p ↔ KeptPath p := by
  have good : ∀ es : List Str, (∀ e ∈ es, e ≠ [] ∧ '/' ∉ e ∧ e ≠ ".".toList ∧ e ≠ "..".toList) ↔ RootElems es := by
    intro es
    constructor
    · intro h e he
      obtain ⟨a, b, c, d⟩ := h e he
      exact ⟨⟨a, b, c⟩, d⟩
    · intro h e he
      obtain ⟨⟨a, b, c⟩, d⟩ := h e he
      exact ⟨a, b, c, d⟩
  constructor
  · intro h
    unfold cleanPath at h
    have key : ∀ q : Str, isAbs q = true → (if q.getLast? = some '/' ∧ clean q ≠ ['/'] then clean q ++ ['/'] else clean q) = p → KeptPath p := by
      intro q hq hp
      obtain ⟨es, hes, hc⟩ := clean_rooted hq
      refine ⟨es, (good es).2 hes, ?_⟩
      rw [hc] at hp
      by_cases hn : es = []
      · subst hn
        right
        rw [← hp]
        simp [joinSlash]
      · rw [joinSlash_flat es hn] at hp
        split at hp
        · exact .inr hp.symm
        · exact .inl ⟨hn, hp.symm⟩
    split at h
    · exact key _ rfl h
    · exact key _ rfl h
  · rintro ⟨es, h, hp⟩
    have hr := (good es).1 h
    obtain ⟨c1, c2⟩ := clean_kept hr
    rcases hp with ⟨hn, hp⟩ | hp
    · have h0 : ∃ q, p = '/' :: q := by
        rw [hp]
        cases es with
        | nil => exact absurd rfl hn
        | cons e es => exact ⟨_, rfl⟩
      obtain ⟨q, hq⟩ := h0
      rw [hq, cleanPath_abs, ← hq, hp, c2 hn, if_neg, joinSlash_flat es hn]
      rintro ⟨hl, _⟩
      obtain ⟨es', e, rfl⟩ := List.eq_nil_or_concat es |>.resolve_left hn
      have he := h e (by simp)
      rw [List.concat_eq_append, List.flatMap_append] at hl
      simp only [List.flatMap_cons, List.flatMap_nil, List.append_nil] at hl
      have hl' : e.getLast? = some '/' := by
        cases he' : e with
        | nil => exact absurd he' he.1
        | cons c cs =>
          rw [he'] at hl
          rw [List.getLast?_append] at hl
          simpa using hl
      exact he.2.1 (List.mem_of_getLast? hl')
    · have h0 : ∃ q, p = '/' :: q := by
        rw [hp]
        cases es with
        | nil => exact ⟨_, rfl⟩
        | cons e es => exact ⟨_, rfl⟩
      obtain ⟨q, hq⟩ := h0
      rw [hq, cleanPath_abs, ← hq, hp, c1]
      by_cases hn : es = []
      · subst hn
        simp [joinSlash]
      · rw [if_pos, joinSlash_flat es hn]
        · rfl
        · refine ⟨by simp, fun hc => ?_⟩
          rw [joinSlash_flat es hn] at hc
          obtain ⟨e, es', rfl⟩ := List.exists_cons_of_ne_nil hn
          have he := h e (by simp)
          rw [List.flatMap_cons] at hc
          have := (List.cons.inj hc).2
          exact he.1 (List.append_eq_nil_iff.1 this).1

theorem serve_key (A : Cli) (rec : Rec) (base : CommandOptions) (key : Str) (params : List (Str × Str)) (vars : List Str) (v : View)
    (hc : KeptPath ("/lookup/".toList ++ key)) (hk : '\n' ∉ key) :
    serve A rec base ("/lookup/".toList ++ key) params vars v =
      match lookupAndRender A rec (restOptions base params vars) [key] v with
      | none => none
      | some (r, w) => some (answer r, w) := by
  have hp : pathKey ("/lookup/".toList ++ key) = some key := by
    unfold pathKey
    rw [if_pos (hasPrefix_append _ _), List.drop_left']
    · simp only
      rw [if_pos]
      simp only [List.all_eq_true, bne_iff_ne]
      exact fun x hx e => hk (e ▸ hx)
    · rfl
  unfold serve
  rw [(keptPath_iff _).2 hc, if_neg, if_neg (by simp), if_pos (hasPrefix_append _ _)]
  · unfold doLookup
    rw [hp]
    rfl
  · intro h
    have := congrArg List.length h
    simp at this

/-- C52, for keys that survive in a URL: the answer is that of the lookup. -/
theorem C52_answer_partial (A : Cli) (rec : Rec) (base : CommandOptions) (key : Str) (params : List (Str × Str)) (vars : List Str)
    (v w : View) (he : base.explainData = false) (he' : base.explainOptions = false) (ha : base.lookupAll = false)
    (hc : KeptPath ("/lookup/".toList ++ key)) (hk : '\n' ∉ key)
    (tp : Option Nat) (dv : Option Value) (scope : Entries) (hp : Prepared A (restOptions base params vars) tp dv scope) (r : Response) :
    serve A rec base ("/lookup/".toList ++ key) params vars v = some (r, w) ↔
      ∃ x s, requestLookup A rec (restOptions base params vars) key tp dv scope v = some (x, s) ∧ Answers A x r ∧ w = s.v := by
  rw [serve_key A rec base key params vars v hc hk]
  generalize ho : restOptions base params vars = o at *
  have hx : explainerOf o = none := by subst ho; simp [explainerOf, restOptions, he, he']
  have hla : o.lookupAll = false := by subst ho; exact ha
  have hra : o.renderAs = "json".toList := by subst ho; rfl
  unfold lookupAndRender
  rw [hp.type, hp.default, hp.scope]
  simp only [bind, Res.bind, pure]
  rw [C62_lookup A rec o tp dv [key] hla, hx]
  unfold requestLookup
  cases lookup2 A.types rec [key] tp dv none none (mergeOptions o.merge) none (nextInvocation { v := v } (invocationScope A.scope (some scope)) none) with
  | none => simp
  | some q =>
    obtain ⟨x, s⟩ := q
    cases x with
    | panic e =>
      simp only [answer, Option.some.injEq, Prod.mk.injEq]
      constructor
      · rintro ⟨rfl, rfl⟩; exact ⟨_, _, ⟨rfl, rfl⟩, .failed, rfl⟩
      · rintro ⟨_, _, ⟨rfl, rfl⟩, h, rfl⟩; cases h; exact ⟨rfl, rfl⟩
    | ok f =>
      cases f with
      | none =>
        have : renderFor A o none s.tree = .ok (false, []) := by unfold renderFor; rw [hx]; rfl
        simp only [this, answer, Option.some.injEq, Prod.mk.injEq]
        constructor
        · rintro ⟨rfl, rfl⟩; exact ⟨_, _, ⟨rfl, rfl⟩, .nothing, rfl⟩
        · rintro ⟨_, _, ⟨rfl, rfl⟩, h, rfl⟩; cases h; exact ⟨rfl, rfl⟩
      | some y =>
        have : renderFor A o (some y) s.tree = (renderTo A.render "json".toList (.value y)).bind (fun t => .ok (true, t)) := by
          unfold renderFor
          rw [hx, hra]
          rfl
        simp only [this]
        cases ht : renderTo A.render "json".toList (.value y) with
        | ok out =>
          simp only [Res.bind, answer, Option.some.injEq, Prod.mk.injEq]
          constructor
          · rintro ⟨rfl, rfl⟩; exact ⟨_, _, ⟨rfl, rfl⟩, .found ht, rfl⟩
          · rintro ⟨_, _, ⟨rfl, rfl⟩, h, rfl⟩
            cases h with
            | found h => rw [ht] at h; cases h; exact ⟨rfl, rfl⟩
            | unrendered h => rw [ht] at h; cases h
        | panic e =>
          simp only [Res.bind, answer, Option.some.injEq, Prod.mk.injEq]
          constructor
          · rintro ⟨rfl, rfl⟩; exact ⟨_, _, ⟨rfl, rfl⟩, .unrendered ht, rfl⟩
          · rintro ⟨_, _, ⟨rfl, rfl⟩, h, rfl⟩
            cases h with
            | found h => rw [ht] at h; cases h
            | unrendered h => exact ⟨rfl, rfl⟩

/-- C52: a bad type, default or variable is an error too. -/
theorem C52_bad_request (A : Cli) (rec : Rec) (base : CommandOptions) (key : Str) (params : List (Str × Str)) (vars : List Str) (v : View)
    (hc : KeptPath ("/lookup/".toList ++ key)) (hk : '\n' ∉ key)
    (hp : ¬∃ tp dv scope, Prepared A (restOptions base params vars) tp dv scope) :
    serve A rec base ("/lookup/".toList ++ key) params vars v = some (⟨500, []⟩, v) := by
  rw [serve_key A rec base key params vars v hc hk]
  generalize restOptions base params vars = o at *
  unfold lookupAndRender
  cases h1 : typeOf A.types.env o.type with
  | panic e => rfl
  | ok tp =>
    cases h2 : defaultOf A.cli o.default with
    | panic e => rfl
    | ok dv =>
      cases h3 : createScope A.cli o with
      | panic e => rfl
      | ok scope => exact absurd ⟨tp, dv, scope, h1, h2, h3⟩ hp

/-- C52: paths outside of `/lookup/` are not found. -/
theorem C52_outside (A : Cli) (rec : Rec) (base : CommandOptions) (path : Str) (params : List (Str × Str)) (vars : List Str) (v : View)
    (hc : KeptPath path) (h1 : path ≠ "/lookup".toList) (h2 : ∀ rest, path ≠ "/lookup/".toList ++ rest) :
    serve A rec base path params vars v = some (⟨404, []⟩, v) := by
  unfold serve
  rw [(keptPath_iff _).2 hc, if_neg h1, if_neg (by simp), if_neg]
  intro h
  obtain ⟨rest, hr⟩ := (hasPrefix_iff _ _).1 h
  exact h2 rest hr

/-- C52: other paths, and `/lookup`, are redirected. -/
theorem C52_redirected (A : Cli) (rec : Rec) (base : CommandOptions) (path : Str) (params : List (Str × Str)) (vars : List Str) (v : View)
    (h : ¬KeptPath path ∨ path = "/lookup".toList) : serve A rec base path params vars v = some (⟨301, []⟩, v) := by
  unfold serve
  rcases h with h | rfl
  · split
    · rfl
    · rw [if_pos (fun hc => h ((keptPath_iff _).1 hc))]
  · rw [if_pos (by decide)]

/-- C52: the variables of a request are those of the server, and then all that the request has, in order. -/
theorem C52_variables (base : CommandOptions) (params : List (Str × Str)) : ∃ vs, restVars base params = base.vars ++ vs ∧
    AllParams params "var".toList vs := by
  refine ⟨_, rfl, ?_⟩
  unfold paramAll
  induction params with
  | nil => exact .nil
  | cons p params ih =>
    obtain ⟨k, v⟩ := p
    by_cases hk : k = "var".toList
    · subst hk
      rw [List.filter_cons, if_pos (by simp)]
      exact .value ih
    · rw [List.filter_cons, if_neg (by simpa using hk)]
      exact .other hk ih

example : KeptPath "/lookup/a/b/".toList := ⟨["lookup".toList, "a".toList, "b".toList], by decide, .inr (by decide)⟩
example : AllParams [("var".toList, "a=1".toList), ("merge".toList, "deep".toList), ("var".toList, "b=2".toList)] "var".toList ["a=1".toList, "b=2".toList] :=
  .value (.other (by decide) (.value .nil))

/-- A server. -/
def restWorld : Cli :=
  { cliWorld with types := { cliWorld.types with env := two [(s "a//b", .arr [.int 1]), (s "a\nb", .arr [.int 2]), (s "a", .arr [.int 3])] [] } }

/-- The answer to a request. -/
def restAsk (path : String) (params : List (String × String)) : Option (Nat × String) :=
  let ps := params.map (fun p => (p.1.toList, p.2.toList))
  (serve restWorld (eval restWorld.types.env 8) {} path.toList ps (restVars {} ps) (st []).v).map
    (fun r => (r.1.code, String.ofList r.1.body))

example : restAsk "/lookup/a" [("var", "x=1"), ("merge", "unique")] = some (200, "3,\n") ∧ restAsk "/lookup/b" [] = some (404, "") ∧
    restAsk "/lookup/b" [("default", "x")] = some (200, "?\n") ∧ restAsk "/lookup/a" [("var", "x")] = some (500, "") ∧
    restAsk "/lookup/a" [("merge", "sum")] = some (500, "") ∧ restAsk "/look" [] = some (404, "") := by decide +kernel

/-- C52 is false of keys that are changed by cleaning their path, which are redirected, and of keys with newlines, which are
not found although the hierarchy has them. -/
theorem C52_false : (ask restWorld.types.env 8 "a//b" = some (.ok (some (.arr [.int 1]))) ∧ restAsk "/lookup/a//b" [] = some (301, "")) ∧
    (ask restWorld.types.env 8 "a\nb" = some (.ok (some (.arr [.int 2]))) ∧ restAsk "/lookup/a\nb" [] = some (404, "")) := by
  decide +kernel

/-! ### C48 -/

/-- What each request has got so far is a part of what it should get. -/
structure Spec.Isolated (base : List Str) (vars : Nat → List Str) (s : RestState) : Prop where
  cells : s.cells.take base.length = base
  writing : ∀ i j, s.phase i = .writing j → vars i = []
  shared : ∀ i got, s.phase i = .reading none got → vars i = [] ∧ got <+: base
  own : ∀ i a got, s.phase i = .reading (some a) got → a = base ++ vars i ∧ got <+: a
  done : ∀ i got, s.phase i = .done got → got = base ++ vars i

theorem prefix_snoc {got l : List Str} {x : Str} (h : got <+: l) (hx : l[got.length]? = some x) : got ++ [x] <+: l := by
  obtain ⟨t, rfl⟩ := h
  rw [List.getElem?_append_right (Nat.le_refl _), Nat.sub_self] at hx
  cases t with
  | nil => cases hx
  | cons y t =>
    cases hx
    exact ⟨t, by simp⟩

theorem isolated_step {base : List Str} {vars : Nat → List Str} {cap : Nat}
    (hf : ∀ i, vars i = [] ∨ base.length + (vars i).length > cap) {i : Nat} {s t : RestState} (hl : s.cells.length = cap)
    (h : Isolated base vars s) (hs : RestStep base.length vars i s t) : Isolated base vars t ∧ t.cells.length = cap := by
  have upd : ∀ (p : Phase) (q : Phase) (k : Nat), Function.update s.phase i p k = q → (k = i ∧ q = p) ∨ (k ≠ i ∧ s.phase k = q) := by
    intro p q k hq
    by_cases hk : k = i
    · subst hk; rw [Function.update_self] at hq; exact .inl ⟨rfl, hq.symm⟩
    · rw [Function.update_of_ne hk] at hq; exact .inr ⟨hk, hq⟩
  cases hs with
  | grow h1 h2 =>
    refine ⟨⟨h.cells, ?_, ?_, ?_, ?_⟩, hl⟩
    · intro k j hk
      rcases upd _ _ _ hk with ⟨_, hq⟩ | ⟨_, hk⟩
      · cases hq
      · exact h.writing k j hk
    · intro k got hk
      rcases upd _ _ _ hk with ⟨_, hq⟩ | ⟨_, hk⟩
      · cases hq
      · exact h.shared k got hk
    · intro k a got hk
      rcases upd _ _ _ hk with ⟨rfl, hq⟩ | ⟨_, hk⟩
      · cases hq; exact ⟨by rw [h.cells], List.nil_prefix⟩
      · exact h.own k a got hk
    · intro k got hk
      rcases upd _ _ _ hk with ⟨_, hq⟩ | ⟨_, hk⟩
      · cases hq
      · exact h.done k got hk
  | fits h1 h2 =>
    have he : vars i = [] := (hf i).resolve_right (by omega)
    refine ⟨⟨h.cells, ?_, ?_, ?_, ?_⟩, hl⟩
    · intro k j hk
      rcases upd _ _ _ hk with ⟨rfl, _⟩ | ⟨_, hk⟩
      · exact he
      · exact h.writing k j hk
    · intro k got hk
      rcases upd _ _ _ hk with ⟨_, hq⟩ | ⟨_, hk⟩
      · cases hq
      · exact h.shared k got hk
    · intro k a got hk
      rcases upd _ _ _ hk with ⟨_, hq⟩ | ⟨_, hk⟩
      · cases hq
      · exact h.own k a got hk
    · intro k got hk
      rcases upd _ _ _ hk with ⟨_, hq⟩ | ⟨_, hk⟩
      · cases hq
      · exact h.done k got hk
  | write h1 h2 => rw [h.writing i _ h1] at h2; cases h2
  | written h1 h2 =>
    refine ⟨⟨h.cells, ?_, ?_, ?_, ?_⟩, hl⟩
    · intro k j hk
      rcases upd _ _ _ hk with ⟨_, hq⟩ | ⟨_, hk⟩
      · cases hq
      · exact h.writing k j hk
    · intro k got hk
      rcases upd _ _ _ hk with ⟨rfl, hq⟩ | ⟨_, hk⟩
      · cases hq; exact ⟨h.writing k _ h1, List.nil_prefix⟩
      · exact h.shared k got hk
    · intro k a got hk
      rcases upd _ _ _ hk with ⟨_, hq⟩ | ⟨_, hk⟩
      · cases hq
      · exact h.own k a got hk
    · intro k got hk
      rcases upd _ _ _ hk with ⟨_, hq⟩ | ⟨_, hk⟩
      · cases hq
      · exact h.done k got hk
  | @read own got x h1 h2 h3 =>
    refine ⟨⟨h.cells, ?_, ?_, ?_, ?_⟩, hl⟩
    · intro k j hk
      rcases upd _ _ _ hk with ⟨_, hq⟩ | ⟨_, hk⟩
      · cases hq
      · exact h.writing k j hk
    · intro k got' hk
      rcases upd _ _ _ hk with ⟨rfl, hq⟩ | ⟨_, hk⟩
      · cases hq
        obtain ⟨he, hp⟩ := h.shared k got h1
        refine ⟨he, prefix_snoc hp ?_⟩
        rw [he] at h2
        simp only [Option.getD_none] at h3
        rw [← h.cells, List.getElem?_take_of_lt (by simpa using h2)]
        exact h3
      · exact h.shared k got' hk
    · intro k a got' hk
      rcases upd _ _ _ hk with ⟨rfl, hq⟩ | ⟨_, hk⟩
      · cases hq
        obtain ⟨ha, hp⟩ := h.own k a got h1
        exact ⟨ha, prefix_snoc hp h3⟩
      · exact h.own k a got' hk
    · intro k got' hk
      rcases upd _ _ _ hk with ⟨_, hq⟩ | ⟨_, hk⟩
      · cases hq
      · exact h.done k got' hk
  | @finish own got h1 h2 =>
    refine ⟨⟨h.cells, ?_, ?_, ?_, ?_⟩, hl⟩
    · intro k j hk
      rcases upd _ _ _ hk with ⟨_, hq⟩ | ⟨_, hk⟩
      · cases hq
      · exact h.writing k j hk
    · intro k got' hk
      rcases upd _ _ _ hk with ⟨_, hq⟩ | ⟨_, hk⟩
      · cases hq
      · exact h.shared k got' hk
    · intro k a got' hk
      rcases upd _ _ _ hk with ⟨_, hq⟩ | ⟨_, hk⟩
      · cases hq
      · exact h.own k a got' hk
    · intro k got' hk
      rcases upd _ _ _ hk with ⟨rfl, hq⟩ | ⟨_, hk⟩
      · cases hq
        cases own with
        | none =>
          obtain ⟨he, hp⟩ := h.shared k got h1
          rw [he, List.append_nil]
          rw [he] at h2
          exact hp.eq_of_length_le (by simpa using h2)
        | some a =>
          obtain ⟨rfl, hp⟩ := h.own k a got h1
          exact hp.eq_of_length_le (by simpa using h2)
      · exact h.done k got' hk

/-- C48, the part that holds: if the array has no room for the variables of the requests (in particular if it is full), every
request gets the variables of the server and its own, in every schedule. -/
theorem C48_isolated_partial (base spare : List Str) (vars : Nat → List Str)
    (hf : ∀ i, vars i = [] ∨ (vars i).length > spare.length) (s : RestState) (hr : RestRun base.length vars (restStart base spare) s)
    (i : Nat) (got : List Str) (hd : s.phase i = .done got) : got = base ++ vars i := by
  have : Isolated base vars s ∧ s.cells.length = (base ++ spare).length := by
    have hf' : ∀ i, vars i = [] ∨ base.length + (vars i).length > (base ++ spare).length := by
      intro i
      rcases hf i with h | h
      · exact .inl h
      · exact .inr (by simp only [List.length_append]; omega)
    clear hd
    generalize h0 : restStart base spare = s0 at hr
    induction hr with
    | refl =>
      subst h0
      exact ⟨⟨by simp [restStart], fun _ _ h => (nomatch h), fun _ _ h => (nomatch h), fun _ _ _ h => (nomatch h), fun _ _ h => (nomatch h)⟩, rfl⟩
    | step j _ h ih => exact isolated_step hf' ih.2 ih.1 h
  exact this.1.done i got hd

/-- Steps of one request with no steps of others between them. -/
inductive Spec.Alone (n : Nat) (vars : Nat → List Str) (i : Nat) : RestState → RestState → Prop
  | refl {s} : Alone n vars i s s
  | step {s t u} : Alone n vars i s t → RestStep n vars i t u → Alone n vars i s u

/-- How far a request that runs alone has come. -/
def Spec.AloneInv (base vars : List Str) (cells : List Str) : Phase → Prop
  | .start => True
  | .writing j => base.length + vars.length ≤ cells.length ∧ cells.take (base.length + j) = base ++ vars.take j
  | .reading none got => cells.take (base.length + vars.length) = base ++ vars ∧ got <+: base ++ vars
  | .reading (some a) got => a = base ++ vars ∧ got <+: base ++ vars
  | .done got => got = base ++ vars

theorem alone_step {base : List Str} {vars : Nat → List Str} {i : Nat} {s t : RestState} (hb : s.cells.take base.length = base)
    (h : AloneInv base (vars i) s.cells (s.phase i)) (hs : RestStep base.length vars i s t) :
    t.cells.take base.length = base ∧ AloneInv base (vars i) t.cells (t.phase i) := by
  cases hs with
  | grow h1 h2 =>
    refine ⟨hb, ?_⟩
    simp only [Function.update_self, AloneInv, hb, List.nil_prefix, and_self]
  | fits h1 h2 =>
    refine ⟨hb, ?_⟩
    simp only [Function.update_self, AloneInv]
    exact ⟨h2, by simpa using hb⟩
  | @write j x h1 h2 =>
    rw [h1] at h
    obtain ⟨hl, ht⟩ := h
    have hj : j < (vars i).length := (List.getElem?_eq_some_iff.1 h2).1
    refine ⟨?_, ?_⟩
    · simp only
      rw [List.take_set_of_le (Nat.le_add_right _ _)]
      exact hb
    · simp only [Function.update_self, AloneInv, List.length_set]
      refine ⟨hl, ?_⟩
      rw [← Nat.add_assoc, List.take_add_one, List.take_set_of_le (Nat.le_refl _), ht, List.getElem?_set_self (by omega), List.take_add_one, h2]
      simp
  | @written j h1 h2 =>
    rw [h1] at h
    obtain ⟨hl, ht⟩ := h
    refine ⟨hb, ?_⟩
    simp only [Function.update_self, AloneInv]
    refine ⟨?_, List.nil_prefix⟩
    have := congrArg (List.take (base.length + (vars i).length)) ht
    rw [List.take_take, Nat.min_eq_left (by omega), List.take_of_length_le h2] at this
    rw [this, List.take_of_length_le (by simp)]
  | @read own got x h1 h2 h3 =>
    rw [h1] at h
    refine ⟨hb, ?_⟩
    simp only [Function.update_self]
    cases own with
    | none =>
      obtain ⟨ht, hp⟩ := h
      refine ⟨ht, prefix_snoc hp ?_⟩
      rw [← ht, List.getElem?_take_of_lt h2]
      exact h3
    | some a =>
      obtain ⟨rfl, hp⟩ := h
      exact ⟨rfl, prefix_snoc hp h3⟩
  | @finish own got h1 h2 =>
    rw [h1] at h
    refine ⟨hb, ?_⟩
    simp only [Function.update_self, AloneInv]
    cases own with
    | none => exact h.2.eq_of_length_le (by simpa using h2)
    | some a => exact h.2.eq_of_length_le (by simpa using h2)

/-- C48, the other part that holds: a request that is served while no other is gets the variables of the server and its own,
whatever earlier requests left in the array, and leaves those of the server as they were. -/
theorem C48_sequential_partial (base : List Str) (vars : Nat → List Str) (i : Nat) (s t : RestState)
    (hb : s.cells.take base.length = base) (h0 : s.phase i = .start) (hr : Alone base.length vars i s t) :
    t.cells.take base.length = base ∧ ∀ got, t.phase i = .done got → got = base ++ vars i := by
  have : t.cells.take base.length = base ∧ AloneInv base (vars i) t.cells (t.phase i) := by
    induction hr with
    | refl => rw [h0]; exact ⟨hb, trivial⟩
    | step _ h ih => exact alone_step ih.1 ih.2 h
  refine ⟨this.1, fun got hd => ?_⟩
  rw [hd] at this
  exact this.2

/-- A request with a variable that the array has no room for, served with its variables in spite of a second one. -/
example : ∃ s, RestRun 1 (fun _ => ["x=1".toList]) (restStart ["a=1".toList] []) s ∧ s.phase 0 = .done ["a=1".toList, "x=1".toList] := by
  refine ⟨_, .step 0 (.step 0 (.step 1 (.step 0 (.step 0 .refl (.grow rfl (by decide)))
    (.read (own := some ["a=1".toList, "x=1".toList]) (got := []) (x := "a=1".toList) (by simp [restStart]) (by simp) (by decide)))
    (.grow (by simp [restStart]) (by decide)))
    (.read (own := some ["a=1".toList, "x=1".toList]) (got := ["a=1".toList]) (x := "x=1".toList) (by simp) (by simp) (by decide)))
    (.finish (own := some ["a=1".toList, "x=1".toList]) (got := ["a=1".toList, "x=1".toList]) (by simp) (by simp)), by simp⟩

/-- A request served alone, after one that left its variable in the array. -/
example : ∃ s, Alone 1 (fun _ => ["x=1".toList]) 0 ⟨["a=1".toList, "x=7".toList], fun _ => .start⟩ s ∧
    s.phase 0 = .done ["a=1".toList, "x=1".toList] := by
  refine ⟨_, .step (.step (.step (.step (.step (.step .refl (.fits rfl (by decide))) (.write (j := 0) (x := "x=1".toList) (by simp) (by simp)))
    (.written (j := 1) (by simp) (by simp)))
    (.read (own := none) (got := []) (x := "a=1".toList) (by simp) (by simp) (by decide)))
    (.read (own := none) (got := ["a=1".toList]) (x := "x=1".toList) (by simp) (by simp) (by decide)))
    (.finish (own := none) (got := ["a=1".toList, "x=1".toList]) (by simp) (by simp)), by simp⟩

/-- C48 is false: with three variables of its own, the array of a server has room for a fourth (Go doubles the capacity of
small slices), and requests write theirs to the same place. Here both requests are served with the variable of the second. -/
theorem C48_false : ∃ s, RestRun 3 (fun i => if i = 0 then ["x=1".toList] else ["x=2".toList])
      (restStart ["a=1".toList, "b=2".toList, "c=3".toList] [[]]) s ∧
    s.phase 0 = .done ["a=1".toList, "b=2".toList, "c=3".toList, "x=2".toList] := by
  refine ⟨_, .step 0 (.step 0 (.step 0 (.step 0 (.step 0 (.step 1 (.step 1 (.step 0 (.step 0 (.step 0 .refl
    (.fits rfl (by decide))) (.write (j := 0) (x := "x=1".toList) (by simp) (by simp))) (.written (j := 1) (by simp) (by simp)))
    (.fits (by simp [restStart]) (by decide))) (.write (j := 0) (x := "x=2".toList) (by simp) (by simp)))
    (.read (own := none) (got := []) (x := "a=1".toList) (by simp) (by simp) (by decide)))
    (.read (own := none) (got := ["a=1".toList]) (x := "b=2".toList) (by simp) (by simp) (by decide)))
    (.read (own := none) (got := ["a=1".toList, "b=2".toList]) (x := "c=3".toList) (by simp) (by simp) (by decide)))
    (.read (own := none) (got := ["a=1".toList, "b=2".toList, "c=3".toList]) (x := "x=2".toList) (by simp) (by simp) (by decide)))
    (.finish (own := none) (got := ["a=1".toList, "b=2".toList, "c=3".toList, "x=2".toList]) (by simp) (by simp)), by simp⟩

end Hiera
