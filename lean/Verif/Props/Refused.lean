import Verif.Props.Broken

/-!
# C126: a configuration file that is refused
-/

set_option autoImplicit false

namespace Hiera

open Value Spec

/-- C126: if the configuration file is refused, then the first lookup in a session fails with the error that says why. -/
theorem C126_fails {E : Env} (he : StatelessEnv E) {e : Err} (h : newCfg E.cfg E.configPath (E.readYaml E.configPath) = .panic e) {s : St} (hs : Session E s)
    (hl : s.v.locked = []) (sc : Scope) (ex : Option ExplOpts) {k : Key} (hk : k.root ≠ "lookup_options".toList) (o : Entries) (r : Res (Option Value)) :
    Gives E (nextInvocation s sc ex) k o r ↔ r = .panic e := by
  rw [C81_answer E he hs hl]
  have key : ∀ n m, refAnswer E sc k o n m = some (.panic e) := by
    intro n m
    rw [refAnswer, if_neg hk, h]
    rfl
  constructor
  · rintro ⟨n, m, h⟩
    rw [key] at h
    cases h
    rfl
  · rintro rfl
    exact ⟨0, 0, key 0 0⟩

/-- C126: `lookup` prints nothing and fails with this error, for all keys. -/
theorem C126_prints (A : Cli) (he : StatelessEnv A.types.env) {e : Err}
    (h : newCfg A.types.env.cfg A.types.env.configPath (A.types.env.readYaml A.types.env.configPath) = .panic e) (o : CommandOptions) (hx : ¬Explains o)
    {tp : Option Nat} {dv : Option Value} {vars : Entries} (hq : Prepared A o tp dv vars) (ht : o.lookupAll = true → ∀ t, tp = some t → A.members t ≠ none)
    {s : St} (hs : Session A.types.env s) (hl : s.v.locked = []) {a : Str} {k : Key} (ha : newKey a = .ok k) (hk : k.root ≠ "lookup_options".toList)
    (args : List Str) (out : Res (Bool × Str)) :
    (∃ n w, lookupAndRender A (eval A.types.env n) o (a :: args) s.v = some (out, w)) ↔ out = .panic e := by
  rw [prints_unlocked A he hs hl o _ hx hq]
  have key : ∀ opts r, NameAnswer A.types.env (.nested A.scope (.map vars)) opts a r ↔ r = .panic e := by
    intro opts r
    have g := C126_fails he h hs hl (.nested A.scope (.map vars)) none hk opts r
    rw [C81_answer _ he hs hl] at g
    rw [← g]
    constructor
    · intro hr
      cases hr with
      | key h1 h2 => rw [ha] at h1; cases h1; exact h2
      | bad h1 => rw [ha] at h1; cases h1
    · exact fun hr => .key ha hr
  simp only [finds_fails key ht, exists_eq_left]
  constructor
  · intro h
    cases h
    rfl
  · rintro rfl
    exact .fails

/-- C126: the server answers the first request for a key with 500 and nothing else. -/
theorem C126_served (A : Cli) (he : StatelessEnv A.types.env) {e : Err}
    (h : newCfg A.types.env.cfg A.types.env.configPath (A.types.env.readYaml A.types.env.configPath) = .panic e) (base : CommandOptions) (hx : ¬Explains base)
    {key : Str} (hkp : KeptPath ("/lookup/".toList ++ key)) (hkn : '\n' ∉ key) (params : List (Str × Str)) (req : List Str)
    {tp : Option Nat} {dv : Option Value} {vars : Entries} (hq : Prepared A (restOptions base params req) tp dv vars)
    (ht : base.lookupAll = true → ∀ t, tp = some t → A.members t ≠ none)
    {k : Key} (ha : newKey key = .ok k) (hk : k.root ≠ "lookup_options".toList) (r : Response) :
    (∃ n w, serve A (eval A.types.env n) base ("/lookup/".toList ++ key) params req (newInvocation A.scope none).v = some (r, w)) ↔
      r.code = 500 ∧ r.body = [] := by
  have key' := C126_prints A he h (restOptions base params req) hx hq ht (.start A.scope none) rfl ha hk []
  simp only [serve_key A _ base key params req _ hkp hkn]
  have fails : ∀ r' : Response, r' = answer (.panic e) ↔ r'.code = 500 ∧ r'.body = [] := fun r' => by
    have := replies_iff (.panic e) r'
    constructor
    · rintro rfl
      exact ⟨rfl, rfl⟩
    · rintro ⟨h1, h2⟩
      exact (this.1 (by rw [h1, h2]; exact .failed)).symm
  rw [← fails]
  constructor
  · rintro ⟨n, w, hn⟩
    cases hl : lookupAndRender A (eval A.types.env n) (restOptions base params req) [key] (newInvocation A.scope none).v with
    | none => rw [hl] at hn; cases hn
    | some q =>
      obtain ⟨out, u⟩ := q
      rw [hl] at hn
      cases hn
      rw [(key' out).1 ⟨n, _, hl⟩]
  · rintro rfl
    obtain ⟨n, w, hn⟩ := (key' _).2 rfl
    exact ⟨n, w, by rw [hn]⟩

/-! ### What comes after that -/

/-- A step that needs the configuration file: it never returns, or the file is not locked, it fails and leaves the file locked. -/
def Refuses (E : Env) (e : Err) {α : Type} (m : M α) : Prop :=
  ∀ s : St, s.on = none → assoc E.configPath s.v.configs = none → assoc E.configPath s.v.parsed = none →
    m s = none ∨ (E.configPath ∉ s.v.locked ∧ ∃ s', m s = some (.panic e, s') ∧ E.configPath ∈ s'.v.locked)

theorem Refuses.bind {E : Env} {e : Err} {α β : Type} {m : M α} (h : Refuses E e m) (f : α → M β) : Refuses E e (m >>= f) := by
  intro s h1 h2 h3
  rcases h s h1 h2 h3 with h | ⟨h4, s', h5, h6⟩
  · exact .inl (bind_none h)
  · exact .inr ⟨h4, s', bind_panic h5, h6⟩

theorem Refuses.withNode {E : Env} {e : Err} {α : Type} {m : M α} (h : Refuses E e m) (n : Node) : Refuses E e (withNode n m) := by
  intro s h1 h2 h3
  have := h s h1 h2 h3
  unfold Hiera.withNode
  rw [h1]
  exact this

theorem Refuses.forLookupOptions {E : Env} {e : Err} {α : Type} {m : M α} (h : Refuses E e m) : Refuses E e (forLookupOptions m) := by
  intro s h1 h2 h3
  have here := h s h1 h2 h3
  have there := h { s with v := { s.v with ic := { s.v.ic with mode := .lookupOptions } }, on := explForOptions s.on } (by rw [h1]; rfl) h2 h3
  have eq : Hiera.forLookupOptions m s =
      (if s.v.ic.mode = .lookupOptions then m else withCopy (fun ic => { ic with mode := .lookupOptions }) explForOptions m) s := rfl
  rw [eq]
  by_cases hm : s.v.ic.mode = .lookupOptions
  · rw [if_pos hm]
    exact here
  · rw [if_neg hm]
    unfold withCopy
    rcases there with h | ⟨h4, s', h5, h6⟩
    · rw [h]
      exact .inl rfl
    · rw [h5]
      exact .inr ⟨h4, _, rfl, h6⟩

theorem refuses_mergeM {E : Env} {e : Err} {α : Type} {f : α → M (Option Value)} {x : α} (h : Refuses E e (f x)) (os : Entries) (xs : List α) :
    Refuses E e (mergeM (.deep os) (x :: xs) f) := by
  unfold Hiera.mergeM
  cases xs with
  | nil => exact h.bind _
  | cons y ys => exact Refuses.withNode (Refuses.bind (h.bind _) _) _

theorem refuses_config {E : Env} {e : Err} (h : newCfg E.cfg E.configPath (E.readYaml E.configPath) = .panic e) (rec : Rec) (mn : Str) :
    Refuses E e (config E rec E.configPath mn) := by
  intro s h1 h2 h3
  have hw : elsewhere E s.v E.configPath = none := by
    unfold elsewhere
    rw [h]
    split <;> rfl
  have load : loadConfig E E.configPath s = if E.configPath ∈ s.v.locked then none else
      some (.panic e, { s with v := { s.v with trace := s.v.trace ++ [.config E.configPath], locked := E.configPath :: s.v.locked } }) := by
    unfold loadConfig
    rw [bind_def]
    simp only [view, h3, hw, Option.or]
    by_cases hl : E.configPath ∈ s.v.locked
    · rw [if_pos hl, if_pos hl]; rfl
    · rw [if_neg hl, if_neg hl, h]; rfl
  have e1 : config E rec E.configPath mn s = (loadConfig E E.configPath >>= fun c => do
      let rc ← resolve E rec c mn
      putConfig E.configPath rc
      pure rc) s := by
    have hp : (if E.configPath = [] then E.configPath else E.configPath) = E.configPath := by split <;> rfl
    unfold config
    simp only [hp]
    rw [bind_def]
    simp only [view, h2]
  rw [e1]
  by_cases hl : E.configPath ∈ s.v.locked
  · rw [if_pos hl] at load
    exact .inl (bind_none load)
  · rw [if_neg hl] at load
    exact .inr ⟨hl, _, bind_panic load, List.mem_cons_self ..⟩

theorem refuses_lookup {E : Env} (he : StatelessEnv E) {e : Err} (h : newCfg E.cfg E.configPath (E.readYaml E.configPath) = .panic e) (n : Nat) {k : Key}
    (hk : k.root ≠ "lookup_options".toList) (o : Entries) : Refuses E e ((eval E n).lookup k o) := by
  have none_ : ∀ {α : Type}, Refuses E e (hang : M α) := fun _ _ _ _ => .inl rfl
  have lk : ∀ n, Refuses E e ((eval E n).lk .config o k.root) := fun n => by
    cases n with
    | zero => exact none_
    | succ n => exact (refuses_config h (eval E n) []).bind _
  cases n with
  | zero => exact none_
  | succ n =>
    show Refuses E e (lookup E (eval E n) k o)
    unfold lookup
    rw [if_neg hk]
    refine Refuses.bind ?_ _
    rcases he.top with ht | ⟨ht, fs, hf, -⟩
    · rw [ht]
      exact (refuses_config h (eval E n) []).bind _
    · rw [ht]
      show Refuses E e (muxLookup E (eval E n) o k.root)
      unfold muxLookup
      rw [hf]
      exact (refuses_mergeM (f := fun f => (eval E n).lk f o k.root) (lk n) [] fs).forLookupOptions.bind _

theorem refused_unparsed {E : Env} {e : Err} (h : newCfg E.cfg E.configPath (E.readYaml E.configPath) = .panic e) {s : St} (hs : Spec.Session E s) :
    assoc E.configPath s.v.parsed = none := by
  cases hp : assoc E.configPath s.v.parsed with
  | none => rfl
  | some c =>
    have := C60_as_parsed E hs _ c hp
    rw [h] at this
    cases this

/-- C126: a lookup that has failed leaves the configuration file locked. -/
theorem C126_leaves {E : Env} (he : StatelessEnv E) {e : Err} (h : newCfg E.cfg E.configPath (E.readYaml E.configPath) = .panic e) {s t : St} (hs : Session E s)
    (sc : Scope) {k : Key} (hk : k.root ≠ "lookup_options".toList) (o : Entries) {n : Nat} {r : Res (Option Value)}
    (ht : (eval E n).lookup k o (nextInvocation s sc none) = some (r, t)) : r = .panic e ∧ E.configPath ∈ t.v.locked := by
  have hp : assoc E.configPath (nextInvocation s sc none).v.parsed = none := refused_unparsed (s := s) h hs
  rcases refuses_lookup he h n hk o (nextInvocation s sc none) rfl rfl hp with h1 | ⟨-, t', h1, h2⟩
  · rw [h1] at ht
    cases ht
  · rw [h1] at ht
    cases ht
    exact ⟨rfl, h2⟩

/-- C126: while it is locked, no lookup of the session returns, neither with a value nor with an error. -/
theorem C126_hangs {E : Env} (he : StatelessEnv E) {e : Err} (h : newCfg E.cfg E.configPath (E.readYaml E.configPath) = .panic e) {s : St} (hs : Session E s)
    (hl : E.configPath ∈ s.v.locked) (sc : Scope) {k : Key} (hk : k.root ≠ "lookup_options".toList) (o : Entries) (r : Res (Option Value)) :
    ¬Gives E (nextInvocation s sc none) k o r := by
  rintro ⟨n, t, ht⟩
  have hp : assoc E.configPath (nextInvocation s sc none).v.parsed = none := refused_unparsed (s := s) h hs
  rcases refuses_lookup he h n hk o (nextInvocation s sc none) rfl rfl hp with h1 | ⟨h1, -⟩
  · rw [h1] at ht
    cases ht
  · exact h1 hl

theorem refuses_for (A : Cli) (he : StatelessEnv A.types.env) {e : Err}
    (h : newCfg A.types.env.cfg A.types.env.configPath (A.types.env.readYaml A.types.env.configPath) = .panic e) (n : Nat) (o : CommandOptions)
    (tp : Option Nat) (dv : Option Value) (ht : o.lookupAll = true → ∀ t, tp = some t → A.members t ≠ none) {a : Str} {k : Key}
    (ha : newKey a = .ok k) (hk : k.root ≠ "lookup_options".toList) (args : List Str) :
    Refuses A.types.env e (lookupFor A (eval A.types.env n) o tp dv (a :: args)) := by
  have name : ∀ opts, Refuses A.types.env e (lookupName (eval A.types.env n) opts a) := fun opts => by
    unfold lookupName
    rw [ha]
    exact refuses_lookup he h n hk opts
  have all : ∀ t opts, Refuses A.types.env e (lookupAll A.types (eval A.types.env n) (a :: args) t none none opts) := fun t opts =>
    Refuses.bind (Refuses.bind (Refuses.bind (name opts) _) _) _
  unfold lookupFor
  by_cases hb : o.lookupAll = true
  · simp only [hb, ↓reduceIte]
    cases tp with
    | none => exact (all _ _).bind _
    | some t =>
      cases hm : A.members t with
      | none => exact absurd hm (ht hb t rfl)
      | some f =>
        simp only [hm]
        exact (all _ _).bind _
  · simp only [hb]
    exact Refuses.bind (Refuses.bind (name _) _) _

theorem refuses_render (A : Cli) (he : StatelessEnv A.types.env) {e : Err}
    (h : newCfg A.types.env.cfg A.types.env.configPath (A.types.env.readYaml A.types.env.configPath) = .panic e) (n : Nat) {o : CommandOptions} (hx : ¬Explains o)
    {tp : Option Nat} {dv : Option Value} {vars : Entries} (hq : Prepared A o tp dv vars) (ht : o.lookupAll = true → ∀ t, tp = some t → A.members t ≠ none)
    {a : Str} {k : Key} (ha : newKey a = .ok k) (hk : k.root ≠ "lookup_options".toList) (args : List Str) {v : View}
    (hv : assoc A.types.env.configPath v.parsed = none) :
    lookupAndRender A (eval A.types.env n) o (a :: args) v = none ∨ (A.types.env.configPath ∉ v.locked ∧
      ∃ w, lookupAndRender A (eval A.types.env n) o (a :: args) v = some (.panic e, w) ∧ A.types.env.configPath ∈ w.locked) := by
  have hx' : explainerOf o = none := by
    unfold explainerOf
    rw [if_neg (by simpa [Explains] using hx)]
  unfold lookupAndRender
  rw [hq.type, hq.default, hq.scope]
  simp only [bind, Res.bind, pure]
  rw [hx']
  rcases refuses_for A he h n o tp dv ht ha hk args (nextInvocation { v := v } (invocationScope A.scope (some vars)) none) rfl rfl hv with h1 | ⟨h1, s, h2, h3⟩
  · rw [h1]
    exact .inl rfl
  · rw [h2]
    exact .inr ⟨h1, _, rfl, h3⟩

/-- C126: once a request for a key has been answered, no request for a key is, neither for the same key nor for another. -/
theorem C126_unanswered (A : Cli) (he : StatelessEnv A.types.env) {e : Err}
    (h : newCfg A.types.env.cfg A.types.env.configPath (A.types.env.readYaml A.types.env.configPath) = .panic e) (base : CommandOptions) (hx : ¬Explains base)
    {v : View} (hs : Serving A base v)
    {key : Str} (hkp : KeptPath ("/lookup/".toList ++ key)) (hkn : '\n' ∉ key) (params : List (Str × Str)) (req : List Str)
    {tp : Option Nat} {dv : Option Value} {vars : Entries} (hq : Prepared A (restOptions base params req) tp dv vars)
    (ht : base.lookupAll = true → ∀ t, tp = some t → A.members t ≠ none)
    {k : Key} (ha : newKey key = .ok k) (hk : k.root ≠ "lookup_options".toList) {n : Nat} {r : Response} {w : View}
    (hr : serve A (eval A.types.env n) base ("/lookup/".toList ++ key) params req v = some (r, w))
    {key' : Str} (hkp' : KeptPath ("/lookup/".toList ++ key')) (hkn' : '\n' ∉ key') (params' : List (Str × Str)) (req' : List Str)
    {tp' : Option Nat} {dv' : Option Value} {vars' : Entries} (hq' : Prepared A (restOptions base params' req') tp' dv' vars')
    (ht' : base.lookupAll = true → ∀ t, tp' = some t → A.members t ≠ none)
    {k' : Key} (ha' : newKey key' = .ok k') (hk' : k'.root ≠ "lookup_options".toList) (n' : Nat) :
    serve A (eval A.types.env n') base ("/lookup/".toList ++ key') params' req' w = none := by
  have unparsed : ∀ {u : View}, Serving A base u → assoc A.types.env.configPath u.parsed = none := fun hu => by
    obtain ⟨s, hss, rfl⟩ := hu.session
    exact refused_unparsed h hss
  have hw : A.types.env.configPath ∈ w.locked := by
    have hr' := hr
    rw [serve_key A _ base key params req v hkp hkn] at hr'
    rcases refuses_render A he h n (o := restOptions base params req) hx hq ht ha hk [] (unparsed hs) with h1 | ⟨-, w', h1, h2⟩
    · rw [h1] at hr'
      cases hr'
    · rw [h1] at hr'
      cases hr'
      exact h2
  rw [serve_key A _ base key' params' req' w hkp' hkn']
  rcases refuses_render A he h n' (o := restOptions base params' req') hx hq' ht' ha' hk' [] (unparsed (.request n _ params req hs hr)) with h1 | ⟨h1, -⟩
  · rw [h1]
  · exact absurd hw h1

namespace Refused126

open World Rungs119

/-- The configuration file is a list. -/
def world : Env :=
  { Rungs119.world with readYaml := fun p => if p = Rungs119.world.configPath then .value (.arr []) else Rungs119.world.readYaml p }

theorem stateless : StatelessEnv world := ⟨Rungs119.stateless.1, Rungs119.stateless.2, Rungs119.stateless.3, Rungs119.stateless.4⟩

theorem refused : newCfg world.cfg world.configPath (world.readYaml world.configPath) = .panic .typeAssertion := by
  have : world.readYaml world.configPath = .value (.arr []) := by
    show (if Rungs119.world.configPath = Rungs119.world.configPath then FileRes.value (.arr []) else Rungs119.world.readYaml Rungs119.world.configPath) = _
    rw [if_pos rfl]
  rw [this]
  rfl

example (r : Res (Option Value)) :
    Gives world (nextInvocation (newInvocation scope none) scope none) ⟨"conf".toList, [.name "conf".toList]⟩ [] r ↔ r = .panic .typeAssertion :=
  C126_fails stateless refused (.start scope none) rfl scope none (by decide) [] r

/-- The first lookup fails, and the second, of another key, never returns. -/
example : ∃ n t, (eval world n).lookup ⟨"conf".toList, [.name "conf".toList]⟩ [] (nextInvocation (newInvocation scope none) scope none) =
      some (.panic .typeAssertion, t) ∧ ∀ r, ¬Gives world (nextInvocation t scope none) ⟨"port".toList, [.name "port".toList]⟩ [] r := by
  obtain ⟨n, t, h⟩ := (C126_fails stateless refused (.start scope none) rfl scope none (k := ⟨"conf".toList, [.name "conf".toList]⟩) (by decide) [] _).2 rfl
  have hl := (C126_leaves stateless refused (.start scope none) scope (by decide) [] h).2
  exact ⟨n, t, h, C126_hangs stateless refused (.lookup n _ _ (.invocation scope none (.start scope none)) h) hl scope (by decide) []⟩

def shell : Cli := withEnv RungsShell119.shell world

/-- `lookup --vars vars.yaml conf port`. -/
example (out : Res (Bool × Str)) :
    (∃ n w, lookupAndRender shell (eval world n) RungsShell119.options ("conf".toList :: ["port".toList]) (newInvocation shell.scope none).v = some (out, w)) ↔
      out = .panic .typeAssertion :=
  C126_prints shell stateless refused RungsShell119.options (by unfold Explains; decide) (vars := vars)
    ⟨rfl, rfl, by decide +kernel⟩ nofun (.start shell.scope none) rfl (k := ⟨"conf".toList, [.name "conf".toList]⟩) rfl (by decide) _ out

example (r : Response) :
    (∃ n w, serve shell (eval world n) RungsShell119.options ("/lookup/".toList ++ "conf".toList) [] [] (newInvocation shell.scope none).v = some (r, w)) ↔
      r.code = 500 ∧ r.body = [] :=
  C126_served shell stateless refused RungsShell119.options (by unfold Explains; decide)
    ((keptPath_iff _).1 (by decide +kernel)) (by decide) [] [] (vars := vars)
    ⟨rfl, rfl, by decide +kernel⟩ nofun (k := ⟨"conf".toList, [.name "conf".toList]⟩) rfl (by decide) r

/-- After the first request, one for another key is never answered. -/
example {n : Nat} {r : Response} {w : View}
    (hr : serve shell (eval world n) RungsShell119.options ("/lookup/".toList ++ "conf".toList) [] [] (newInvocation shell.scope none).v = some (r, w)) (m : Nat) :
    serve shell (eval world m) RungsShell119.options ("/lookup/".toList ++ "port".toList) [] [] w = none :=
  C126_unanswered shell stateless refused RungsShell119.options (by unfold Explains; decide) .start
    ((keptPath_iff _).1 (by decide +kernel)) (by decide) [] [] (vars := vars)
    ⟨rfl, rfl, by decide +kernel⟩ nofun (k := ⟨"conf".toList, [.name "conf".toList]⟩) rfl (by decide) hr
    ((keptPath_iff _).1 (by decide +kernel)) (by decide) [] [] (vars' := vars)
    ⟨rfl, rfl, by decide +kernel⟩ nofun (k' := ⟨"port".toList, [.name "port".toList]⟩) rfl (by decide) m

end Refused126

end Hiera
