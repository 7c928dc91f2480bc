/- With tame functions and a configuration that can be read, nothing is ever locked. -/
import Verif.Lemmas.Shape
import Verif.Lemmas.Mono

set_option autoImplicit false

namespace Hiera

open Spec

/-- The locks are as before, whatever the outcome. -/
abbrev SameLocks : Rel := Mono (fun v w => w.locked = v.locked)

theorem SameLocks.pre : Pre (fun v w : View => w.locked = v.locked) := ⟨fun _ => rfl, fun h g => g.trans h⟩

theorem SameLocks.core : CoreV SameLocks := Mono.core SameLocks.pre

theorem SameLocks.copy {α : Type} {m m' : M α} (f : Ic → Ic) (g : Option ExplOpts → Option ExplOpts) (hm : SameLocks α m m') :
    SameLocks α (withCopy f g m) (withCopy f g m') := by
  intro s r t ht
  unfold withCopy at ht
  cases hms : m { s with v := { s.v with ic := f s.v.ic }, on := g s.on } with
  | none => rw [hms] at ht; cases ht
  | some x => rw [hms] at ht; cases ht; have := hm _ _ _ hms; exact this

theorem SameLocks.forData {α : Type} {m m' : M α} (hm : SameLocks α m m') : SameLocks α (forData m) (forData m') := by
  unfold Hiera.forData
  refine core.bind core.view (fun v => ?_)
  by_cases hd : v.ic.mode = .data
  · simp only [hd, ↓reduceIte]; exact hm
  · simp only [hd, ↓reduceIte]; exact copy _ _ hm

theorem SameLocks.forLookupOptions {α : Type} {m m' : M α} (hm : SameLocks α m m') :
    SameLocks α (forLookupOptions m) (forLookupOptions m') := by
  unfold Hiera.forLookupOptions
  refine core.bind core.view (fun v => ?_)
  by_cases hd : v.ic.mode = .lookupOptions
  · simp only [hd, ↓reduceIte]; exact hm
  · simp only [hd, ↓reduceIte]; exact copy _ _ hm

theorem SameLocks.doRedacted {α : Type} {m m' : M α} (hm : SameLocks α m m') : SameLocks α (doRedacted m) (doRedacted m') := by
  intro s r t ht
  unfold Hiera.doRedacted at ht
  split at ht
  · exact hm _ _ _ ht
  · cases hms : m { s with v := { s.v with ic := { s.v.ic with redacted := true } } } with
    | none => rw [hms] at ht; cases ht
    | some x => rw [hms] at ht; cases ht; have := hm _ _ _ hms; exact this

theorem SameLocks.asking {E : Env} (ht : TameEnv E) : Asking E SameLocks Tame Fits where
  toCore := core.toCore
  loadOnce := Mono.loadOnce pre (fun _ _ => rfl)
  emitDig := fun _ _ => Mono.update (fun _ => rfl)
  emitKey := fun _ _ _ => Mono.update (fun _ => rfl)
  dataHash := fun p n loc _ => Mono.dataHash pre (fun _ _ => rfl) (fun _ _ _ => rfl) (fun _ _ => rfl) p n loc
  keyFn := ht.keyFn
  fits := fun _ _ _ h => h

theorem SameLocks.resolving : Resolving SameLocks where
  toCore := core.toCore
  doWithScope := by
    intro α m m' sc hm
    unfold Hiera.doWithScope
    exact core.bind core.view (fun v => core.bind (Mono.update (fun _ => rfl)) (fun _ => core.bind hm (fun _ =>
      core.bind (Mono.update (fun _ => rfl)) (fun _ => core.pure _))))
  newProvider := fun e => core.bind core.view (fun v => core.bind (Mono.update (fun _ => rfl)) (fun _ => core.pure _))

/-- The configuration of the session can be read. -/
def Spec.Readable (E : Env) : Prop := ∃ c, newCfg E.cfg E.configPath (E.readYaml E.configPath) = .ok c

theorem SameLocks.loadConfig {E : Env} (hc : Readable E) : SameLocks _ (loadConfig E E.configPath) (loadConfig E E.configPath) := by
  obtain ⟨c', hc⟩ := hc
  unfold Hiera.loadConfig
  refine core.bind core.view (fun v => ?_)
  cases (assoc E.configPath v.parsed).or (elsewhere E v E.configPath) with
  | some a => exact core.pure _
  | none =>
    by_cases hl : E.configPath ∈ v.locked
    · simp only [hl, ↓reduceIte]; exact fun _ _ _ h => nomatch h
    · simp only [hl, ↓reduceIte, hc]
      exact core.bind (Mono.update (fun _ => rfl)) (fun _ => core.bind (Mono.update (fun _ => rfl)) (fun _ => core.pure _))

theorem SameLocks.config {E : Env} (ht : TameEnv E) (hc : Readable E) {rec rec' : Rec} (hr : RecRelOn SameLocks SameLocks Tame rec rec') :
    SameLocks _ (config E rec E.configPath []) (config E rec' E.configPath []) := by
  have ha := asking ht
  have hf : ∀ {α : Type} {m m' : M α}, SameLocks α m m' → SameLocks α (forConfig m) (forConfig m') := by
    intro α m m' hm s r t h
    unfold Hiera.forConfig at h
    split at h
    · exact hm _ _ _ h
    · exact copy id (fun _ => none) hm _ _ _ h
  unfold Hiera.config
  refine core.bind core.view (fun v => ?_)
  have e : (if E.configPath = [] then E.configPath else E.configPath) = E.configPath := by split <;> rfl
  rw [e]
  cases assoc E.configPath v.configs with
  | some rc => exact core.pure _
  | none =>
    refine core.bind (loadConfig hc) (fun cf => core.bind ?_ (fun rc => core.bind (Mono.update (fun _ => rfl)) (fun _ => core.pure _)))
    unfold Hiera.resolve
    exact core.bind (hf (core.bind (resolving.createProviders hr.interpC _ _) (fun _ => core.bind (resolving.createProviders hr.interpC _ _) (fun _ => core.pure _))))
      (fun pd => core.bind (forLookupOptions (core.withNode _ (ha.mergeM _ _ _ _ (fun p _ => ha.mergeLocations hr _ _ _)))) (fun v => core.pure _))

theorem SameLocks.shape {E : Env} (ht : TameEnv E) (hc : Readable E) : Shape E SameLocks SameLocks where
  r := asking ht
  d := asking ht
  setLuOpts := fun _ => Mono.update (fun _ => rfl)
  setStrategy := fun _ => Mono.update (fun _ => rfl)
  redacted := doRedacted
  optionsR := forLookupOptions
  dataD := forData
  dataR := forData
  config := fun hr => config ht hc hr
  tame := ht

theorem lookup_locks {E : Env} (ht : TameEnv E) (hc : Readable E) {n : Nat} {k : Key} {o : Entries} {s t : St} {r : Res (Option Value)}
    (h : (eval E n).lookup k o s = some (r, t)) : t.v.locked = s.v.locked :=
  ((SameLocks.shape ht hc).eval (SameLocks.shape ht hc) (fun _ _ _ _ h => nomatch h) (fun _ _ _ _ h => nomatch h) n).1.lookup k o s r t h

end Hiera
