/- C89: invocations of a session that run at the same time. -/
import Verif.Props.Reference
import Verif.Props.Printed

set_option autoImplicit false

namespace Hiera

open Value Spec World

/-- Lookups one after the other, until one fails. -/
def Spec.series (E : Env) (n : Nat) : List (Key × Entries) → M (List (Option Value))
  | [] => pure []
  | (k, o) :: ks => do
    let v ← (eval E n).lookup k o
    let vs ← series E n ks
    pure (v :: vs)

theorem series_sim (E : Env) (n : Nat) : ∀ ks, Sim (Fellow E) (fun _ => True) _ (series E n ks) (series E n ks)
  | [] => Sim.core.pure _
  | (k, o) :: ks => Sim.core.bind ((Sim.eval (Fellow.ok E) n).lookup k o) (fun _ =>
      Sim.core.bind (series_sim E n ks) (fun _ => Sim.core.pure _))

/-- C89, partially: the values that an invocation gets for any lookups, the error of the first that fails, and the explanation
are those that it gets in a session of its own, whichever configuration files other invocations of the session parse in the
meantime, and whatever invocations the session had before. This is for sessions in which no configuration has failed to
load. The functions' cache is the same: it is meant to be shared. Missing: invocations that wait forever for a
configuration that another failed to load (`C60_false`, `Conc.C44_false`), and functions of users that use the cache at the
same time. -/
theorem C89_alone_partial (E : Env) {s : St} (hs : Session E s) (hl : s.v.locked = []) (scope : Scope) (ex : Option ExplOpts)
    (ahead : List Ev → Str → Bool) (n : Nat) (ks : List (Key × Entries)) :
    (series E n ks ((nextInvocation s scope ex).among ahead)).map (fun x => (x.1, x.2.tree)) =
      (series E n ks { (newInvocation scope ex) with v := { (newInvocation scope ex).v with cache := s.v.cache } }).map
        (fun x => (x.1, x.2.tree)) :=
  Fellow.alone E hs hl scope ex ahead (series_sim E n ks)

/-- C89: with functions that use no cache and a configuration that can be read, the answer to a lookup among other invocations
is the answer of the reference, which knows of no other invocations. -/
theorem C89_answer (E : Env) (he : StatelessEnv E) (hc : Readable E) {s : St} (hs : Session E s) (scope : Scope)
    (ex : Option ExplOpts) (ahead : List Ev → Str → Bool) (k : Key) (o : Entries) (r : Res (Option Value)) :
    Gives E ((nextInvocation s scope ex).among ahead) k o r ↔ Answer E scope k o r := by
  have hl := session_locks he hc hs
  have hi : Inv E none ⟨scope, .call⟩ ((nextInvocation s scope none).among ahead) :=
    ⟨rfl, rfl, (by intro p n loc h _ ha; cases ha), fun _ h => (nomatch h), fun h => (nomatch h),
      fun _ => ⟨rfl, fun p c hc => C60_as_parsed E hs p c hc, hl⟩⟩
  have h := lookup_follows he hi rfl rfl k o r
  cases ex with
  | none => exact h
  | some x =>
    rw [← h, gives_iff, gives_iff]
    have : ∀ n, ((eval E n).lookup k o ((nextInvocation s scope (some x)).among ahead)).map Prod.fst =
        ((eval E n).lookup k o ((nextInvocation s scope none).among ahead)).map Prod.fst :=
      fun n => (C27_explain E n k o ((nextInvocation s scope none).among ahead).v x).1
    simp only [this]

/-- C89 after any earlier lookups of the invocation, if the configuration can be resolved. -/
theorem C89_history (E : Env) (he : StatelessEnv E) (hc : Readable E) {s : St} (hs : Session E s) (scope : Scope)
    (ahead : List Ev → Str → Bool) {k0 : Key} (hk0 : k0.root ≠ "lookup_options".toList) {o0 : Entries} {v0 : Option Value}
    (h0 : Answer E scope k0 o0 (.ok v0)) {t : St} (h : History E ((nextInvocation s scope none).among ahead) t)
    (k : Key) (o : Entries) (r : Res (Option Value)) : Gives E t k o r ↔ Answer E scope k o r := by
  rw [← C89_answer E he hc hs scope none ahead k o r]
  obtain ⟨b, hb⟩ := basis he.tame he.configFirst (s0 := (nextInvocation s scope none).among ahead) rfl rfl
    ⟨(by intro p n loc h _ ha; cases ha), fun p c hc => C60_as_parsed E hs p c hc, show s.v.locked = [] from session_locks he hc hs⟩ hk0
    ((C89_answer E he hc hs scope none ahead k0 o0 _).2 h0)
  rcases hb.history he.tame h with rfl | h
  · exact Iff.rfl
  · rw [hb.gives, h.gives hb]

namespace Concurrent89

/-- The answer to a lookup, and whether the invocation has read the configuration file itself. -/
def asked (ahead : List Ev → Str → Bool) : Option (Option Value × Bool) :=
  match (eval variedWorld 2).lookup ⟨"x".toList, [.name "x".toList]⟩ [] ((newInvocation (.map [(s "e", s "1")]) none).among ahead) with
  | some (.ok v, t) => some (v, t.v.trace.any (fun e => match e with | .config _ => true | _ => false))
  | _ => none

/-- Not vacuous: alone, the invocation reads the configuration file; among others it may find it parsed. -/
example : asked (fun _ _ => false) = some (some (s "one"), true) ∧ asked (fun _ _ => true) = some (some (s "one"), false) := by
  decide +kernel

theorem readable : Readable variedWorld := by
  have h : (match newCfg variedWorld.cfg variedWorld.configPath (variedWorld.readYaml variedWorld.configPath) with
    | .ok _ => true | .panic _ => false) = true := by decide +kernel
  cases hc : newCfg variedWorld.cfg variedWorld.configPath (variedWorld.readYaml variedWorld.configPath) with
  | ok c => exact ⟨c, hc⟩
  | panic e => rw [hc] at h; cases h

example : StatelessEnv variedWorld ∧ Readable variedWorld ∧ Session variedWorld (newInvocation (.map []) none) :=
  ⟨⟨.inl rfl, (fun _ _ h => nomatch h), (fun _ _ h => nomatch h), (fun _ _ _ h => nomatch h)⟩, readable, .start _ _⟩

end Concurrent89

end Hiera
