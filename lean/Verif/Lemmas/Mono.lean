/- Invariants of the evaluator: a reflexive and transitive relation on the views before and after that every primitive
change respects holds between the views before and after any computation, whatever its outcome. -/
import Verif.Lemmas.Rel
import Verif.Lemmas.Fuel

set_option autoImplicit false

namespace Hiera

/-- `P` is reflexive and transitive. -/
structure Pre (P : View → View → Prop) : Prop where
  refl : ∀ v, P v v
  trans : ∀ {a b c}, P a b → P b c → P a c

/-- `P` is respected by the primitive changes. -/
structure Change (E : Env) (P : View → View → Prop) : Prop extends Pre P where
  ic : ∀ v ic, P v { v with ic := ic }
  nextId : ∀ v, P v { v with nextId := v.nextId + 1 }
  loaded : ∀ v id, P v { v with loaded := id :: v.loaded }
  dig : ∀ v n ps, P v { v with trace := v.trace ++ [.dig n ps] }
  key : ∀ v n o k, P v { v with trace := v.trace ++ [.key n o k] }
  hash : ∀ p n loc, Fits p n loc → ∀ s r t, dataHash E p n loc s = some (r, t) → P s.v t.v
  config : ∀ path s r t, loadConfig E path s = some (r, t) → P s.v t.v
  configs : ∀ v path rc, P v { v with configs := (path, rc) :: v.configs }
  cache : ∀ v k x, P v { v with cache := (k, x) :: v.cache }

/-- Related before and after, whatever the outcome. -/
def Mono (P : View → View → Prop) : Rel := fun _ m _ => ∀ s r t, m s = some (r, t) → P s.v t.v

section
variable {P : View → View → Prop} (h : Pre P)
include h

omit h in
theorem Mono.update {f : View → View} {m' : M Unit} (hf : ∀ v, P v (f v)) : Mono P Unit (update f) m' := by
  intro s r t ht
  cases ht
  exact hf _

theorem Mono.core : CoreV (Mono P) where
  pure := by
    intro α a s r t ht
    cases ht
    exact h.refl _
  bind := by
    intro α β m m' f f' hm hf s r t ht
    rw [bind_def] at ht
    cases hms : m s with
    | none => rw [hms] at ht; cases ht
    | some x =>
      obtain ⟨a | e, u⟩ := x
      · rw [hms] at ht
        exact h.trans (hm s _ _ hms) (hf a u r t ht)
      · rw [hms] at ht
        cases ht
        exact hm s _ _ hms
  panic := by
    intro α e s r t ht
    cases ht
    exact h.refl _
  view := by
    intro s r t ht
    cases ht
    exact h.refl _
  withNode := by
    intro α m m' n hm s r t ht
    unfold Hiera.withNode at ht
    by_cases ho : s.on.isNone = true
    · rw [if_pos ho] at ht; exact hm s r t ht
    · rw [if_neg ho] at ht
      cases hp : s.tree.push n with
      | none => simp only [hp] at ht; cases ht; exact h.refl _
      | some tr =>
        simp only [hp] at ht
        cases hms : m { s with tree := tr } with
        | none => rw [hms] at ht; cases ht
        | some x =>
          rw [hms] at ht
          cases ht
          exact hm { s with tree := tr } x.1 x.2 hms
  report := by
    intro f _ s r t ht
    unfold Hiera.report at ht
    by_cases ho : s.on.isNone = true
    · rw [if_pos ho] at ht; cases ht; exact h.refl _
    · rw [if_neg ho] at ht
      cases hp : s.tree.accept f with
      | none => simp only [hp] at ht; cases ht; exact h.refl _
      | some tr => simp only [hp] at ht; cases ht; exact h.refl _

/-- `loadOnce` marks the provider, if anything. -/
theorem Mono.loadOnce {E : Env} (hl : ∀ v id, P v { v with loaded := id :: v.loaded }) (p : Prov) (n : Str) :
    Mono P _ (loadOnce E p n) (loadOnce E p n) := by
  have c := Mono.core h
  unfold Hiera.loadOnce
  refine c.bind (c.lift _) (fun f => c.bind c.view (fun v => ?_))
  by_cases hm : p.id ∈ v.loaded
  · simp only [hm, ↓reduceIte]; exact c.pure _
  · simp only [hm, ↓reduceIte]
    refine c.bind ?_ (fun _ => c.bind (Mono.update (fun v => hl v p.id)) (fun _ => c.pure _))
    cases f
    · exact c.report _ (by grows)
    · exact c.pure _

/-- `dataHash` marks the provider, records the call and remembers the data, if anything. -/
theorem Mono.dataHash {E : Env} (hl : ∀ v id, P v { v with loaded := id :: v.loaded })
    (he : ∀ v n o, P v { v with trace := v.trace ++ [.hash n o] }) (hh : ∀ v x, P v { v with hashes := x :: v.hashes })
    (p : Prov) (n : Str) (loc : Option Loc) : Mono P _ (dataHash E p n loc) (dataHash E p n loc) := by
  have c := Mono.core h
  unfold Hiera.dataHash
  refine c.bind c.view (fun v => ?_)
  cases assoc (p, match loc with | some l => l.resolved | none => []) v.hashes with
  | some d => exact c.pure _
  | none =>
    refine c.bind ?_ (fun d => c.bind (Mono.update (fun v => hh v _)) (fun _ => c.pure _))
    unfold Hiera.callHash
    split
    · exact c.bind (Mono.update (fun v => he v _ _)) (fun _ => c.lift _)
    · split
      · exact c.bind (Mono.update (fun v => he v _ _)) (fun _ => c.lift _)
      · refine c.bind (Mono.loadOnce h hl _ _) (fun f => ?_)
        cases f with
        | none => exact c.pure _
        | some f =>
          cases f with
          | hash f =>
            refine c.bind (Mono.update (fun v => he v _ _)) (fun _ => c.bind (c.lift _) (fun r => ?_))
            split <;> exact c.pure _
          | _ => exact c.panic _

/-- `loadConfig` records the file, and the configuration or the lock, if anything. -/
theorem Mono.loadConfig {E : Env} (he : ∀ v path, P v { v with trace := v.trace ++ [.config path] })
    (hp : ∀ v path c, assoc path v.parsed = none → newCfg E.cfg path (E.readYaml path) = .ok c → P v { v with parsed := (path, c) :: v.parsed })
    (hk : ∀ v path, P v { v with locked := path :: v.locked })
    (path : Str) : Mono P _ (loadConfig E path) (loadConfig E path) := by
  intro s r t ht
  unfold Hiera.loadConfig at ht
  rw [bind_ok (show view s = some (.ok s.v, s) from rfl)] at ht
  cases hb : (assoc path s.v.parsed).or (elsewhere E s.v path) with
  | some c => simp only [hb] at ht; cases ht; exact h.refl _
  | none =>
    have ha := (Option.or_eq_none_iff.1 hb).1
    simp only [hb] at ht
    split at ht
    · cases ht
    · rw [bind_ok (show emit (.config path) s = some (.ok (), { s with v := { s.v with trace := s.v.trace ++ [.config path] } }) from rfl)] at ht
      cases hn : newCfg E.cfg path (E.readYaml path) with
      | ok c =>
        simp only [hn] at ht
        cases ht
        exact h.trans (he s.v path) (hp _ path c ha hn)
      | panic e =>
        simp only [hn] at ht
        cases ht
        exact h.trans (he s.v path) (hk _ path)
end

section
variable {E : Env} {P : View → View → Prop} (h : Change E P)
include h

theorem Mono.withCopy {α : Type} {m m' : M α} (f : Ic → Ic) (g : Option ExplOpts → Option ExplOpts) (hm : Mono P α m m') :
    Mono P α (withCopy f g m) (withCopy f g m') := by
  intro s r t ht
  unfold Hiera.withCopy at ht
  cases hms : m { s with v := { s.v with ic := f s.v.ic }, on := g s.on } with
  | none => rw [hms] at ht; cases ht
  | some x =>
    rw [hms] at ht
    cases ht
    exact h.trans (h.ic s.v (f s.v.ic)) (h.trans (hm _ _ _ hms) (h.ic _ _))

/-- A relation that the primitive changes respect is respected by the operations of the evaluator. -/
theorem Mono.closed : Closed E (Mono P) (Mono P) where
  toCore := (Mono.core h.toPre).toCore
  coreC := (Mono.core h.toPre).toCore
  doWithScope := by
    intro α m m' sc hm
    have c := Mono.core h.toPre
    unfold Hiera.doWithScope
    exact c.bind c.view (fun v => c.bind (Mono.update (fun v => h.ic v _)) (fun _ => c.bind hm (fun _ =>
      c.bind (Mono.update (fun v => h.ic v _)) (fun _ => c.pure _))))
  newProvider := by
    intro e
    have c := Mono.core h.toPre
    exact c.bind c.view (fun v => c.bind (Mono.update h.nextId) (fun _ => c.pure _))
  forConfig := by
    intro α m m' hm
    have hw := Mono.withCopy h id (fun _ => none) hm
    intro s r t ht
    unfold Hiera.forConfig at ht
    by_cases ho : s.on.isNone = true
    · rw [if_pos ho] at ht; exact hm _ _ _ ht
    · rw [if_neg ho] at ht; exact hw _ _ _ ht
  forData := by
    intro α m m' hm
    have c := Mono.core h.toPre
    unfold Hiera.forData
    refine c.bind c.view (fun v => ?_)
    by_cases hd : v.ic.mode = .data
    · simp only [hd, ↓reduceIte]; exact hm
    · simp only [hd, ↓reduceIte]; exact Mono.withCopy h _ _ hm
  forLookupOptions := by
    intro α m m' hm
    have c := Mono.core h.toPre
    unfold Hiera.forLookupOptions
    refine c.bind c.view (fun v => ?_)
    by_cases hd : v.ic.mode = .lookupOptions
    · simp only [hd, ↓reduceIte]; exact hm
    · simp only [hd, ↓reduceIte]; exact Mono.withCopy h _ _ hm
  doRedacted := by
    intro α m m' hm s r t ht
    unfold Hiera.doRedacted at ht
    by_cases ho : s.v.ic.redacted = true
    · rw [if_pos ho] at ht; exact hm _ _ _ ht
    · rw [if_neg ho] at ht
      cases hms : m { s with v := { s.v with ic := { s.v.ic with redacted := true } } } with
      | none => rw [hms] at ht; cases ht
      | some x =>
        rw [hms] at ht
        cases ht
        have := hm _ _ _ hms
        exact h.trans (h.ic s.v _) (h.trans this (h.ic _ _))
  loadOnce := fun p n => Mono.loadOnce h.toPre h.loaded p n
  emitDig := fun n ps => Mono.update (fun v => h.dig v n ps)
  emitKey := fun n o k => Mono.update (fun v => h.key v n o k)
  dataHash := fun p n loc hf => h.hash p n loc hf
  loadConfig := fun path => h.config path
  putConfig := fun path rc => Mono.update (fun v => h.configs v path rc)
  setLuOpts := fun lo => Mono.update (fun v => h.ic v _)
  setStrategy := fun st => Mono.update (fun v => h.ic v _)
  putCache := fun k x => Mono.update (fun v => h.cache v k x)

theorem Mono.eval (n : Nat) : RecRel (Mono P) (Mono P) (eval E n) (eval E n) :=
  (Mono.closed h).eval (fun _ _ _ _ h => (nomatch h)) (fun _ _ _ _ h => (nomatch h)) n
end

end Hiera
