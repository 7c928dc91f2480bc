import Verif.Props.Printed
import Verif.Props.RungsKept
import Verif.Props.RungsShell

/-!
# C123: what gives the same is printed and served the same
-/

set_option autoImplicit false

namespace Hiera

open Value Spec

/-- The command line and the server in another environment. -/
abbrev Spec.withEnv (A : Cli) (E : Env) : Cli := { A with types := { A.types with env := E } }

/-- Two environments have the same answers for all keys and options. -/
def Spec.SameAnswers (E E' : Env) (sc : Scope) : Prop := ∀ (k : Key) (o : Entries) (r : Res (Option Value)), Answer E' sc k o r ↔ Answer E sc k o r

theorem nameAnswer_same {E E' : Env} {sc : Scope} (h : SameAnswers E E' sc) {o : Entries} : NameAnswer E' sc o = NameAnswer E sc o := by
  funext n r
  refine propext ⟨fun h' => ?_, fun h' => ?_⟩
  · cases h' with
    | key h1 h2 => exact .key h1 ((h _ _ _).1 h2)
    | bad h1 => exact .bad h1
  · cases h' with
    | key h1 h2 => exact .key h1 ((h _ _ _).2 h2)
    | bad h1 => exact .bad h1

theorem finds_same {A : Cli} {E' : Env} {sc : Scope} (h : SameAnswers A.types.env E' sc) (hn : E'.newValue = A.types.env.newValue)
    {o : CommandOptions} {tp : Option Nat} {dv : Option Value} {args : List Str} {r : Res (Option Value)} :
    Finds (withEnv A E') o sc tp dv args r ↔ Finds A o sc tp dv args r := by
  have e : (withEnv A E').types.env.newValue = A.types.env.newValue := hn
  have a : ∀ o, NameAnswer (withEnv A E').types.env sc o = NameAnswer A.types.env sc o := fun _ => nameAnswer_same h
  constructor
  · intro h
    cases h with
    | first h1 h2 h3 h4 h5 => rw [a] at h3; rw [e] at h5; exact .first h1 h2 h3 h4 h5
    | all h1 h2 h3 h4 => rw [a, e] at h4; exact .all h1 h2 h3 h4
    | struct h1 h2 h3 h4 h5 => rw [a, e] at h5; exact .struct h1 h2 h3 h4 h5
    | notStruct h1 h2 h3 => exact .notStruct h1 h2 h3
  · intro h
    cases h with
    | first h1 h2 h3 h4 h5 => rw [← a] at h3; rw [← e] at h5; exact .first h1 h2 h3 h4 h5
    | all h1 h2 h3 h4 => rw [← a, ← e] at h4; exact .all h1 h2 h3 h4
    | struct h1 h2 h3 h4 h5 => rw [← a, ← e] at h5; exact .struct h1 h2 h3 h4 h5
    | notStruct h1 h2 h3 => exact .notStruct h1 h2 h3

theorem prints_same {A : Cli} {E' : Env} {o : CommandOptions} {r : Res (Option Value)} {out : Res (Bool × Str)} :
    Prints (withEnv A E') o r out ↔ Prints A o r out := by
  constructor <;>
  · intro h
    cases h with
    | fails => exact .fails
    | nothing => exact .nothing
    | value h => exact .value h

/-- C123: if two environments give the same for all keys in the scope that the options of a command make, then `lookup` with these
options prints the same, or fails with the same error, for all arguments, whatever was looked up before. -/
theorem C123_prints (A : Cli) {E' : Env} (he : StatelessEnv A.types.env) (he' : StatelessEnv E') (hc : Readable A.types.env) (hc' : Readable E')
    (ht : E'.parseType = A.types.env.parseType) (hn : E'.newValue = A.types.env.newValue) (o : CommandOptions) (hx : ¬Explains o)
    {s s' : St} (hs : Session A.types.env s) (hs' : Session E' s')
    (h : ∀ vars, createScope A.cli o = .ok vars → ∀ k opts r,
      Gives E' (nextInvocation s' (.nested A.scope (.map vars)) none) k opts r ↔ Gives A.types.env (nextInvocation s (.nested A.scope (.map vars)) none) k opts r)
    (args : List Str) (out : Res (Bool × Str)) :
    (∃ n w, lookupAndRender (withEnv A E') (eval E' n) o args s'.v = some (out, w)) ↔
      ∃ n w, lookupAndRender A (eval A.types.env n) o args s.v = some (out, w) := by
  have e : typeOf E' o.type = typeOf A.types.env o.type := by unfold typeOf; rw [ht]
  by_cases hp : ∃ tp dv vars, Prepared A o tp dv vars
  · obtain ⟨tp, dv, vars, hp⟩ := hp
    have hp' : Prepared (withEnv A E') o tp dv vars := ⟨e.trans hp.type, hp.default, hp.scope⟩
    have same : SameAnswers A.types.env E' (.nested A.scope (.map vars)) := fun k opts r => by
      have := h vars hp.scope k opts r
      rwa [C81_session _ he' hc' hs', C81_session _ he hc hs] at this
    rw [C83_prints A he hc hs o args hx hp, C83_prints (withEnv A E') he' hc' hs' o args hx hp']
    exact exists_congr (fun r => and_congr (finds_same same hn) prints_same)
  · have hp' : ¬∃ tp dv vars, Prepared (withEnv A E') o tp dv vars := fun ⟨tp, dv, vars, h'⟩ => hp ⟨tp, dv, vars, e.symm.trans h'.type, h'.default, h'.scope⟩
    have key : ∀ (rec rec' : Rec) (v v' : View), (lookupAndRender (withEnv A E') rec' o args v').map (·.1) = (lookupAndRender A rec o args v).map (·.1) := by
      intro rec rec' v v'
      obtain ⟨er, h1, _⟩ := C83_rejected A rec o args v hp
      obtain ⟨er', h1', _⟩ := C83_rejected (withEnv A E') rec' o args v' hp'
      rw [h1, h1']
      unfold lookupAndRender at h1 h1'
      rw [show typeOf (withEnv A E').types.env o.type = typeOf A.types.env o.type from e] at h1'
      cases h2 : typeOf A.types.env o.type with
      | panic x => rw [h2] at h1 h1'; cases h1; cases h1'; rfl
      | ok tp =>
        cases h3 : defaultOf A.cli o.default with
        | panic x => rw [h2, h3] at h1 h1'; cases h1; cases h1'; rfl
        | ok dv =>
          cases h4 : createScope A.cli o with
          | panic x => rw [h2, h3, h4] at h1 h1'; cases h1; cases h1'; rfl
          | ok vars => exact absurd ⟨tp, dv, vars, h2, h3, h4⟩ hp
    constructor
    · rintro ⟨n, w, hw⟩
      have := key (eval A.types.env n) (eval E' n) s.v s'.v
      rw [hw] at this
      cases hl : lookupAndRender A (eval A.types.env n) o args s.v with
      | none => rw [hl] at this; cases this
      | some q =>
        rw [hl] at this
        obtain ⟨a, b⟩ := q
        cases this
        exact ⟨n, b, hl⟩
    · rintro ⟨n, w, hw⟩
      have := key (eval A.types.env n) (eval E' n) s.v s'.v
      rw [hw] at this
      cases hl : lookupAndRender (withEnv A E') (eval E' n) o args s'.v with
      | none => rw [hl] at this; cases this
      | some q =>
        rw [hl] at this
        obtain ⟨a, b⟩ := q
        cases this
        exact ⟨n, b, hl⟩

/-- C123: and the server answers all requests in the same way, whatever was requested before. -/
theorem C123_served (A : Cli) {E' : Env} (he : StatelessEnv A.types.env) (he' : StatelessEnv E') (hc : Readable A.types.env) (hc' : Readable E')
    (ht : E'.parseType = A.types.env.parseType) (hn : E'.newValue = A.types.env.newValue) (base : CommandOptions) (hx : ¬Explains base)
    {v v' : View} (hv : Serving A base v) (hv' : Serving (withEnv A E') base v') (path : Str) (params : List (Str × Str)) (req : List Str)
    (h : ∀ vars, createScope A.cli (restOptions base params req) = .ok vars → ∀ s s', Session A.types.env s → Session E' s' → ∀ k opts r,
      Gives E' (nextInvocation s' (.nested A.scope (.map vars)) none) k opts r ↔ Gives A.types.env (nextInvocation s (.nested A.scope (.map vars)) none) k opts r)
    (r : Response) :
    (∃ n w, serve (withEnv A E') (eval E' n) base path params req v' = some (r, w)) ↔
      ∃ n w, serve A (eval A.types.env n) base path params req v = some (r, w) := by
  obtain ⟨s, hs, rfl⟩ := hv.session
  obtain ⟨s', hs', rfl⟩ := hv'.session
  unfold serve
  split
  · exact ⟨fun ⟨n, w, h⟩ => by cases h; exact ⟨n, _, rfl⟩, fun ⟨n, w, h⟩ => by cases h; exact ⟨n, _, rfl⟩⟩
  split
  · exact ⟨fun ⟨n, w, h⟩ => by cases h; exact ⟨n, _, rfl⟩, fun ⟨n, w, h⟩ => by cases h; exact ⟨n, _, rfl⟩⟩
  split
  · unfold doLookup
    cases pathKey path with
    | none => exact ⟨fun ⟨n, w, h⟩ => by cases h; exact ⟨n, _, rfl⟩, fun ⟨n, w, h⟩ => by cases h; exact ⟨n, _, rfl⟩⟩
    | some key =>
      have both := C123_prints A he he' hc hc' ht hn (restOptions base params req) hx hs hs' (fun vars hv => h vars hv s s' hs hs') [key]
      have step : ∀ (B : Cli) (t : St), (∃ n w, (match lookupAndRender B (eval B.types.env n) (restOptions base params req) [key] t.v with
          | none => none
          | some (r, w) => some (answer r, w)) = some (r, w)) ↔
          ∃ out, answer out = r ∧ ∃ n w, lookupAndRender B (eval B.types.env n) (restOptions base params req) [key] t.v = some (out, w) := by
        intro B t
        constructor
        · rintro ⟨n, w, h⟩
          cases hl : lookupAndRender B (eval B.types.env n) (restOptions base params req) [key] t.v with
          | none => rw [hl] at h; cases h
          | some q =>
            obtain ⟨out, u⟩ := q
            rw [hl] at h
            cases h
            exact ⟨out, rfl, n, _, hl⟩
        · rintro ⟨out, rfl, n, w, h⟩
          exact ⟨n, w, by rw [h]⟩
      refine (step (withEnv A E') s').trans (Iff.trans ?_ (step A s).symm)
      exact exists_congr (fun out => and_congr_right (fun _ => both out))
  · exact ⟨fun ⟨n, w, h⟩ => by cases h; exact ⟨n, _, rfl⟩, fun ⟨n, w, h⟩ => by cases h; exact ⟨n, _, rfl⟩⟩

/-- C122 for the command: what `lookup` prints depends only on the files that the levels stand for. -/
theorem C122_prints (A : Cli) (he : StatelessEnv A.types.env) {q : Str} {ry rj : Str → FileRes} {rs rs' : List Rung} {p p' : Option Preset}
    {ss ss' : List Step} (h : Stepped A.types.env rs p ss) (h' : Stepped (withFiles A.types.env q ry rj) rs' p' ss') (h1 : rs.length = 1 ↔ rs'.length = 1)
    (hm : ∀ p, ∀ f ∈ A.types.env.glob p, A.types.env.stat f = true) (hd : ¬Marked (theDataDir A.types.env)) (hp : ¬Marked (thePluginDir A.types.env))
    (o : CommandOptions) (hx : ¬Explains o)
    (hf : ∀ vars, createScope A.cli o = .ok vars → SameLevels A.types.env (withFiles A.types.env q ry rj) (.nested A.scope (.map vars)) rs rs' ∧
      ∀ x v, Scope.get (.nested A.scope (.map vars)) x = some v → Unmarked v)
    {s s' : St} (hs : Session A.types.env s) (hs' : Session (withFiles A.types.env q ry rj) s') (args : List Str) (out : Res (Bool × Str)) :
    (∃ n w, lookupAndRender (withEnv A (withFiles A.types.env q ry rj)) (eval (withFiles A.types.env q ry rj) n) o args s'.v = some (out, w)) ↔
      ∃ n w, lookupAndRender A (eval A.types.env n) o args s.v = some (out, w) :=
  C123_prints A he (statelessEnv_files he ..) ⟨_, newCfg_steps h⟩ ⟨_, newCfg_steps h'⟩ rfl rfl o hx hs hs' (fun vars hv k opts r =>
    C122_files he h h' (hf vars hv).1 h1 hm hd hp (hf vars hv).2 hs hs' none none k opts r) args out

/-- C122 for the server. -/
theorem C122_served (A : Cli) (he : StatelessEnv A.types.env) {q : Str} {ry rj : Str → FileRes} {rs rs' : List Rung} {p p' : Option Preset}
    {ss ss' : List Step} (h : Stepped A.types.env rs p ss) (h' : Stepped (withFiles A.types.env q ry rj) rs' p' ss') (h1 : rs.length = 1 ↔ rs'.length = 1)
    (hm : ∀ p, ∀ f ∈ A.types.env.glob p, A.types.env.stat f = true) (hd : ¬Marked (theDataDir A.types.env)) (hp : ¬Marked (thePluginDir A.types.env))
    (base : CommandOptions) (hx : ¬Explains base) {v v' : View} (hv : Serving A base v) (hv' : Serving (withEnv A (withFiles A.types.env q ry rj)) base v')
    (path : Str) (params : List (Str × Str)) (req : List Str)
    (hf : ∀ vars, createScope A.cli (restOptions base params req) = .ok vars →
      SameLevels A.types.env (withFiles A.types.env q ry rj) (.nested A.scope (.map vars)) rs rs' ∧
      ∀ x v, Scope.get (.nested A.scope (.map vars)) x = some v → Unmarked v) (r : Response) :
    (∃ n w, serve (withEnv A (withFiles A.types.env q ry rj)) (eval (withFiles A.types.env q ry rj) n) base path params req v' = some (r, w)) ↔
      ∃ n w, serve A (eval A.types.env n) base path params req v = some (r, w) :=
  C123_served A he (statelessEnv_files he ..) ⟨_, newCfg_steps h⟩ ⟨_, newCfg_steps h'⟩ rfl rfl base hx hv hv' path params req
    (fun vars hvars _ _ hs hs' k opts r => C122_files he h h' (hf vars hvars).1 h1 hm hd hp (hf vars hvars).2 hs hs' none none k opts r) r

/-! ### Not vacuous -/

namespace SamePrinted123

open RungsKept122
open RungsShell119 (options)

/-- The command line of the example of C119, with the files of the example of C122. -/
def shell : Cli := withEnv RungsShell119.shell world'

theorem made {vars : Entries} (h : createScope shell.cli options = .ok vars) : vars = Rungs119.vars := by
  have : createScope shell.cli options = .ok Rungs119.vars := by decide +kernel
  rw [this] at h
  cases h
  rfl

/-- `lookup --vars vars.yaml` prints the same with the other configuration file. -/
example (args : List Str) (out : Res (Bool × Str)) :
    (∃ n w, lookupAndRender (withEnv shell there) (eval there n) options args (newInvocation shell.scope none).v = some (out, w)) ↔
      ∃ n w, lookupAndRender shell (eval world' n) options args (newInvocation shell.scope none).v = some (out, w) :=
  C122_prints shell stateless (stepped_as Rungs119.laddered (p := Rungs119.preset) (ss := Rungs119.steps) rfl rfl (by nofun)) stepped (by decide)
    matched dataDir pluginDir options (by unfold Explains; decide) (fun vars hv => by cases made hv; exact ⟨same, Rungs119.laddered.vars⟩)
    (.start shell.scope none) (.start shell.scope none) args out

/-- What both print. -/
example : (lookupAndRender shell (eval world' 12) options ["conf.b".toList] (newInvocation shell.scope none).v).map (·.1) =
      some (.ok (true, "y\n".toList)) ∧
    (lookupAndRender (withEnv shell there) (eval there 12) options ["conf.b".toList] (newInvocation shell.scope none).v).map (·.1) =
      some (.ok (true, "y\n".toList)) := by decide +kernel

/-- The server answers requests for all keys in the same way with the other configuration file, also after it was asked for a key. -/
example (key : Str) (r : Response) {v v' : View} (hv : Serving shell options v) (hv' : Serving (withEnv shell there) options v') :
    (∃ n w, serve (withEnv shell there) (eval there n) options ("/lookup/".toList ++ key) [] [] v' = some (r, w)) ↔
      ∃ n w, serve shell (eval world' n) options ("/lookup/".toList ++ key) [] [] v = some (r, w) :=
  C122_served shell stateless (stepped_as Rungs119.laddered (p := Rungs119.preset) (ss := Rungs119.steps) rfl rfl (by nofun)) stepped (by decide)
    matched dataDir pluginDir options (by unfold Explains; decide) hv hv' _ [] [] (fun vars hvars => by
      have : createScope shell.cli (restOptions options [] []) = .ok Rungs119.vars := by decide +kernel
      rw [this] at hvars
      cases hvars
      exact ⟨same, Rungs119.laddered.vars⟩) r

end SamePrinted123

end Hiera
