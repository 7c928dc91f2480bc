/-
  Properties of sessions: the choice of the configuration file, and scopes.
-/
import Verif.Spec.Session
import Verif.Lemmas.Config
import Verif.Lemmas.Map
import Verif.Lemmas.World

set_option autoImplicit false

namespace Hiera
open Spec Value World

/-! ### C42 -/

/-- C42: a session reads the configuration file that the options, the environment and the working directory determine. -/
theorem C42_file (S : SessionEnv) (hS : ∀ s, S.toStr (.str s) = s) (options : Entries) (hw : WF (.map options)) (p : Str) :
    configPathOf S (sessionOptions S (some options)) = p ↔ ConfigFile S options p := by
  have hu := (WF_map.1 hw).2
  have key : ∀ p, ConfigFile S options p → configPathOf S (sessionOptions S (some options)) = p := by
    intro p h
    unfold sessionOptions
    simp only [Entries.putAll_nil_left hw]
    cases h with
    | given h =>
      unfold configPathOf
      simp only [(getS_iff hu _ _).2 h]
    | inRoot h hr hn =>
      simp only [(getS_none hu _).2 h]
      unfold addHieraConfig configPathOf
      have : ∀ v, Entries.getS (Entries.put options (.str "Hiera::Config".toList) v) "Hiera::Config".toList = some v := by
        intro v
        unfold Entries.getS
        rw [Entries.get_put hw (by simp) (by simp)]
        simp
      rw [this]
      simp only [hS]
      cases hr with
      | given h1 =>
        simp only [(getS_iff hu _ _).2 h1]
        cases hn with
        | given h2 => simp only [(getS_iff hu _ _).2 h2]
        | environment h2 h3 => simp only [(getS_none hu _).2 h2, h3]
        | builtIn h2 h3 => simp only [(getS_none hu _).2 h2, h3]
      | workingDir h1 =>
        simp only [(getS_none hu _).2 h1]
        cases hn with
        | given h2 => simp only [(getS_iff hu _ _).2 h2]
        | environment h2 h3 => simp only [(getS_none hu _).2 h2, h3]
        | builtIn h2 h3 => simp only [(getS_none hu _).2 h2, h3]
  have total : ∃ p, ConfigFile S options p := by
    have hr : ∃ r, RootDir S options r := by
      by_cases h : Has options "Hiera::Root".toList
      · obtain ⟨v, hv⟩ := h; exact ⟨_, .given hv⟩
      · exact ⟨_, .workingDir h⟩
    have hn : ∃ n, FileName S options n := by
      by_cases h : Has options "Hiera::ConfigFileName".toList
      · obtain ⟨v, hv⟩ := h; exact ⟨_, .given hv⟩
      · cases he : S.lookupEnv "HIERA_CONFIGFILE".toList with
        | some n => exact ⟨_, .environment h he⟩
        | none => exact ⟨_, .builtIn h he⟩
    obtain ⟨r, hr⟩ := hr
    obtain ⟨n, hn⟩ := hn
    by_cases h : Has options "Hiera::Config".toList
    · obtain ⟨v, hv⟩ := h; exact ⟨_, .given hv⟩
    · exact ⟨_, .inRoot h hr hn⟩
  constructor
  · rintro rfl
    obtain ⟨p, hp⟩ := total
    rw [key p hp]; exact hp
  · exact key p

/-- C42: the same without any options. -/
theorem C42_no_options (S : SessionEnv) (hS : ∀ s, S.toStr (.str s) = s) (p : Str) :
    configPathOf S (sessionOptions S none) = p ↔ ConfigFile S [] p :=
  C42_file S hS [] (by simp [WF_map, UniqueKeys]) p

/-- C42: choosing the file leaves every other option as it was. -/
theorem C42_other_options (S : SessionEnv) (options : Entries) (hw : WF (.map options)) (k : Str)
    (hk : k ≠ "Hiera::Config".toList) :
    Entries.getS (sessionOptions S (some options)) k = Entries.getS options k := by
  unfold sessionOptions
  simp only [Entries.putAll_nil_left hw]
  cases h : Entries.getS options "Hiera::Config".toList with
  | some v => rfl
  | none =>
    simp only
    unfold addHieraConfig Entries.getS
    rw [Entries.get_put hw (by simp) (by simp), equals_str]
    generalize "Hiera::Config".toList = c at *
    rw [if_neg (by simpa using Ne.symm hk)]

/-! Concrete cases. -/

/-- A session in `/work` with `HIERA_CONFIGFILE` set. -/
def workEnv : SessionEnv where
  toStr := fun v => match v with | .str s => s | _ => []
  lookupEnv := fun n => if n = "HIERA_CONFIGFILE".toList then some "custom.yaml".toList else none
  cwd := "/work".toList

example : configPathOf workEnv (sessionOptions workEnv none) = "/work/custom.yaml".toList := by decide +kernel
example : configPathOf workEnv (sessionOptions workEnv (some [(s "Hiera::Root", s "/etc")])) = "/etc/custom.yaml".toList := by
  decide +kernel
example : configPathOf workEnv (sessionOptions workEnv (some [(s "Hiera::ConfigFileName", s "sub/h.yaml"), (s "x", .int 1)])) =
    "/work/sub/h.yaml".toList := by decide +kernel
example : configPathOf workEnv (sessionOptions workEnv (some [(s "Hiera::Root", s "/etc"), (s "Hiera::Config", s "/x/y.yaml")])) =
    "/x/y.yaml".toList := by decide +kernel

/-! ### C35 -/

/-- C35: what a lookup does in an invocation with variables of its own is what it does in an invocation that has no
variables of its own, of a session whose variables are the session's overridden by the invocation's. -/
theorem C35_shadow (session own : Entries) (hs : WF (.map session)) (ho : WF (.map own)) :
    invocationScope (.map session) (some own) = invocationScope (.map (Entries.merge session own)) none := by
  unfold invocationScope Scope.nested Scope.map
  ext1
  funext k
  unfold Entries.getS
  simp only
  rw [Entries.get_merge hs ho (by simp)]
  cases Entries.get own (.str k) <;> rfl

/-- C35: in particular for every lookup, whatever the configuration, data, explainer and number of unfoldings. -/
theorem C35_lookup (E : Env) (n : Nat) (k : Key) (o : Entries) (x : Option ExplOpts) (session own : Entries)
    (hs : WF (.map session)) (ho : WF (.map own)) :
    (eval E n).lookup k o (newInvocation (invocationScope (.map session) (some own)) x) =
      (eval E n).lookup k o (newInvocation (invocationScope (.map (Entries.merge session own)) none) x) := by
  rw [C35_shadow session own hs ho]

/-- C35: the variables one by one. An invocation's variable with the value nil (`vf.Nil`) also shadows. -/
theorem C35_variables (session own : Entries) (hs : UniqueKeys session) (ho : UniqueKeys own) (k : Str) (v : Value) :
    (invocationScope (.map session) (some own)).get k = some v ↔
      (Value.str k, v) ∈ own ∨ ¬Has own k ∧ (Value.str k, v) ∈ session := by
  unfold invocationScope Scope.nested Scope.map
  simp only
  cases h : Entries.getS own k with
  | some w =>
    have hm := (getS_iff ho _ _).1 h
    constructor
    · intro h'; cases h'; exact .inl hm
    · rintro (h' | ⟨h', _⟩)
      · rw [(getS_iff ho _ _).2 h'] at h; exact h.symm
      · exact absurd ⟨w, hm⟩ h'
  | none =>
    have hm := (getS_none ho _).1 h
    constructor
    · intro h'; exact .inr ⟨hm, (getS_iff hs _ _).1 h'⟩
    · rintro (h' | ⟨_, h'⟩)
      · exact absurd ⟨v, h'⟩ hm
      · exact (getS_iff hs _ _).2 h'

/-- C35 from the options of the session on: the variables of an invocation are its own and, unless it has them, those that the session was
given with the option `Hiera::Scope`; a session that was not given any has none. -/
theorem C35_options (S : SessionEnv) {options own : Entries} (hw : WF (.map options)) (ho : UniqueKeys own) (k : Str) (v : Value) :
    (∀ vars, (Value.str "Hiera::Scope".toList, Value.map vars) ∈ options → UniqueKeys vars →
      ((invocationScope (sessionScope (sessionOptions S (some options))) (some own)).get k = some v ↔
        (Value.str k, v) ∈ own ∨ ¬Has own k ∧ (Value.str k, v) ∈ vars) ∧
      ((invocationScope (sessionScope (sessionOptions S (some options))) none).get k = some v ↔ (Value.str k, v) ∈ vars)) ∧
    (¬Has options "Hiera::Scope".toList →
      ((invocationScope (sessionScope (sessionOptions S (some options))) (some own)).get k = some v ↔ (Value.str k, v) ∈ own) ∧
      (invocationScope (sessionScope (sessionOptions S (some options))) none).get k = none) := by
  have hu : UniqueKeys options := (WF_map.1 hw).2
  have e := C42_other_options S options hw "Hiera::Scope".toList (by decide)
  constructor
  · intro vars hv hk
    have h : sessionScope (sessionOptions S (some options)) = .map vars := by
      unfold sessionScope
      rw [e, (getS_iff hu _ _).2 hv]
    rw [h]
    exact ⟨C35_variables vars own hk ho k v, getS_iff hk _ _⟩
  · intro hn
    have h : sessionScope (sessionOptions S (some options)) = .map [] := by
      unfold sessionScope
      rw [e, (getS_none hu _).2 hn]
    rw [h]
    refine ⟨(C35_variables [] own (by simp [UniqueKeys]) ho k v).trans ⟨?_, .inl⟩, rfl⟩
    rintro (h | ⟨_, h⟩)
    · exact h
    · cases h

/-! Concrete case: a file chosen by a variable that both scopes have. -/

/-- The data file depends on the variable `env`. -/
def scopedWorld : Env := mk (cfg [entry "e" "%{env}.yaml"])
  [("/h/data/prod.yaml".toList, .map [(s "x", s "p %{zone}")]), ("/h/data/test.yaml".toList, .map [(s "x", s "t %{zone}")])]

example : ((eval scopedWorld 10).lookup ⟨"x".toList, [.name "x".toList]⟩ [] (newInvocation (invocationScope
    (.map [(s "env", s "prod"), (s "zone", s "z")]) (some [(s "env", s "test")])) none)).map Prod.fst =
    some (.ok (some (s "t z"))) := by decide +kernel

example : (invocationScope (sessionScope (sessionOptions workEnv (some [(s "Hiera::Scope", .map [(s "env", s "prod"), (s "zone", s "z")]), (s "x", .int 1)])))
    (some [(s "env", s "test")])).get "zone".toList = some (s "z") := by decide +kernel
example : (invocationScope (sessionScope (sessionOptions workEnv (some [(s "Hiera::Scope", .map [(s "env", s "prod"), (s "zone", s "z")]), (s "x", .int 1)])))
    (some [(s "env", s "test")])).get "env".toList = some (s "test") := by decide +kernel

end Hiera
