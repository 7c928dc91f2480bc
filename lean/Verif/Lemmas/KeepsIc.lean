/- Without a multiplexer, everything that returns leaves the invocation as it was: its variables, options, merge strategy and
mode. (A panic may leave other variables.) -/
import Verif.Lemmas.Rel
import Verif.Lemmas.Fuel

set_option autoImplicit false

namespace Hiera

/-- If it returns, the invocation is as before. -/
def KeepsIc : Rel := fun _ m _ => ∀ s a t, m s = some (.ok a, t) → t.v.ic = s.v.ic

/-- Anything but the multiplexer. -/
def NoMux : LkFn → Prop
  | .mux => False
  | _ => True

theorem KeepsIc.update {f : View → View} (hf : ∀ v, (f v).ic = v.ic) : KeepsIc Unit (update f) (update f) := by
  intro s a t h; cases h; exact hf s.v

theorem KeepsIc.coreV : CoreV KeepsIc where
  pure := fun _ s _ t h => by cases h; rfl
  bind := fun hm hf s b t h => by
    obtain ⟨a, u, h1, h2⟩ := ok_of_bind h
    rw [hf a u b t h2, hm s a u h1]
  panic := fun _ s _ t h => nomatch h
  view := fun s _ t h => by cases h; rfl
  withNode := fun n hm s a t h => by
    unfold withNode at h
    split at h
    · exact hm s a t h
    · split at h
      · cases h
      · rename_i u hu
        split at h
        · cases h
        · rename_i r s' hs
          cases h
          have := hm { s with tree := u } _ _ hs
          exact this
  report := fun f _ s a t h => by
    unfold report at h
    split at h
    · cases h; rfl
    · split at h
      · cases h
      · cases h; rfl

theorem KeepsIc.bindV {α β : Type} {m : M α} {f : α → M β} (hm : KeepsIc α m m) (hf : ∀ a, KeepsIc β (f a) (f a)) :
    KeepsIc β (m >>= f) (m >>= f) := coreV.bind hm hf

theorem KeepsIc.view {β : Type} {f : View → M β} (hf : ∀ v, KeepsIc β (f v) (f v)) : KeepsIc β (Hiera.view >>= f) (Hiera.view >>= f) :=
  bindV coreV.view hf

theorem KeepsIc.copy {α : Type} {m : M α} (f : Ic → Ic) (g : Option ExplOpts → Option ExplOpts) :
    KeepsIc α (withCopy f g m) (withCopy f g m) := by
  intro s a t h
  unfold withCopy at h
  split at h
  · cases h
  · cases h; rfl

theorem KeepsIc.hang {α : Type} : KeepsIc α hang hang := fun _ _ _ h => nomatch h

theorem KeepsIc.loadOnce (E : Env) (p : Prov) (n : Str) : KeepsIc _ (loadOnce E p n) (loadOnce E p n) := by
  refine bindV (coreV.lift _) (fun f => view (fun v => ?_))
  split
  · exact coreV.pure _
  · refine bindV ?_ (fun _ => bindV (update (fun _ => rfl)) (fun _ => coreV.pure _))
    cases f
    · exact coreV.report _ (by grows)
    · exact coreV.pure _

theorem KeepsIc.dataHash (E : Env) (p : Prov) (n : Str) (loc : Option Loc) : KeepsIc _ (dataHash E p n loc) (dataHash E p n loc) := by
  refine view (fun v => ?_)
  split
  · exact coreV.pure _
  · refine bindV ?_ (fun _ => bindV (update (fun _ => rfl)) (fun _ => coreV.pure _))
    unfold callHash
    split
    · exact bindV (update (fun _ => rfl)) (fun _ => coreV.lift _)
    · split
      · exact bindV (update (fun _ => rfl)) (fun _ => coreV.lift _)
      · refine bindV (loadOnce E p n) (fun f => ?_)
        rcases f with _ | (f | f | f)
        · exact coreV.pure _
        · refine bindV (update (fun _ => rfl)) (fun _ => bindV (coreV.lift _) (fun r => ?_))
          split <;> exact coreV.pure _
        · exact coreV.panic _
        · exact coreV.panic _

theorem KeepsIc.asking {E : Env} (hF : ∀ e n f, loadFunction E e n = .ok (some (.key f)) → NoMux f) :
    Asking E KeepsIc NoMux (fun _ _ _ => True) where
  toCore := coreV.toCore
  loadOnce := loadOnce E
  emitDig := fun _ _ => update (fun _ => rfl)
  emitKey := fun _ _ _ => update (fun _ => rfl)
  dataHash := fun p n loc _ => dataHash E p n loc
  keyFn := hF
  fits := fun _ _ _ _ => trivial

theorem KeepsIc.resolving : Resolving KeepsIc where
  toCore := coreV.toCore
  doWithScope := fun {α m m'} sc hm s b t h => by
    unfold doWithScope at h
    rw [bind_ok (show Hiera.view s = some (.ok s.v, s) from rfl),
      bind_ok (show Hiera.update (fun w => { w with ic := { w.ic with scope := sc } }) s =
        some (.ok (), { s with v := { s.v with ic := { s.v.ic with scope := sc } } }) from rfl)] at h
    obtain ⟨a, u, h1, h2⟩ := ok_of_bind h
    have := hm _ _ _ h1
    cases h2
    show { u.v.ic with scope := s.v.ic.scope } = s.v.ic
    rw [this]
  newProvider := fun _ => view (fun _ => bindV (update (fun _ => rfl)) (fun _ => coreV.pure _))

theorem KeepsIc.forConfig {α : Type} {m : M α} (hm : KeepsIc α m m) : KeepsIc α (forConfig m) (forConfig m) := by
  intro s a t h
  unfold Hiera.forConfig at h
  split at h
  · exact hm s a t h
  · exact copy _ _ s a t h

theorem KeepsIc.forLookupOptions {α : Type} {m : M α} (hm : KeepsIc α m m) : KeepsIc α (forLookupOptions m) (forLookupOptions m) := by
  refine view (fun v => ?_)
  split
  · exact hm
  · exact copy _ _

theorem KeepsIc.forData {α : Type} {m : M α} (hm : KeepsIc α m m) : KeepsIc α (forData m) (forData m) := by
  refine view (fun v => ?_)
  split
  · exact hm
  · exact copy _ _

theorem KeepsIc.loadConfig (E : Env) (path : Str) : KeepsIc _ (loadConfig E path) (loadConfig E path) := by
  refine view (fun v => ?_)
  split
  · exact coreV.pure _
  · split
    · exact hang
    · refine bindV (update (fun _ => rfl)) (fun _ => ?_)
      split
      · exact bindV (update (fun _ => rfl)) (fun _ => coreV.pure _)
      · exact bindV (update (fun _ => rfl)) (fun _ => coreV.panic _)

section
variable {E : Env} (hF : ∀ e n f, loadFunction E e n = .ok (some (.key f)) → NoMux f) {rec : Rec}
  (hr : RecRelOn KeepsIc KeepsIc NoMux rec rec)
include hF hr

theorem KeepsIc.resolve (c : Cfg) (m : Str) : KeepsIc _ (resolve E rec c m) (resolve E rec c m) :=
  bindV (forConfig (bindV (resolving.createProviders hr.interpC c _) (fun _ =>
    bindV (resolving.createProviders hr.interpC c _) (fun _ => coreV.pure _)))) (fun _ =>
    bindV (forLookupOptions (coreV.withNode _ ((asking hF).mergeM _ _ _ _ (fun p _ => (asking hF).mergeLocations hr _ _ p)))) (fun _ =>
      coreV.pure _))

theorem KeepsIc.config (path m : Str) : KeepsIc _ (config E rec path m) (config E rec path m) := by
  refine view (fun v => ?_)
  split
  · exact coreV.pure _
  · exact bindV (loadConfig E _) (fun c => bindV (resolve hF hr c m) (fun rc => bindV (update (fun _ => rfl)) (fun _ => coreV.pure _)))

theorem KeepsIc.configAt (path : Str) (o : Entries) (key m : Str) : KeepsIc _ (configAt E rec path o key m) (configAt E rec path o key m) := by
  refine bindV (config hF hr path m) (fun c => bindV (coreV.lift _) (fun k => ?_))
  intro s a t h
  rw [bind_ok (show Hiera.view s = some (.ok s.v, s) from rfl)] at h
  cases hm : s.v.ic.mode with
  | lookupOptions => rw [hm] at h; cases h; rfl
  | data =>
    rw [hm] at h
    exact bindV (asking hF).currentStrategy (fun st => (asking hF).mergeHierarchy hr k _ st) s a t h
  | top =>
    rw [hm] at h
    dsimp only at h
    unfold Hiera.forData at h
    rw [bind_ok (show Hiera.view s = some (.ok s.v, s) from rfl), if_neg (by rw [hm]; simp)] at h
    exact copy _ _ s a t h

omit hF in
theorem KeepsIc.runProg : ∀ p, KeepsIc _ (runProg E rec p) (runProg E rec p)
  | .ret _ => coreV.pure _
  | .panic _ => coreV.panic _
  | .interpolate v k => bindV (coreV.toCore.interpolate hr.interp (fun _ => hr.lookup) E v) (fun r => runProg (k r))
  | .lookup _ o k => bindV (coreV.lift _) (fun kk => bindV (hr.lookup kk o) (fun r => runProg (k r)))
  | .explain _ k => bindV (coreV.report _ (by grows)) (fun _ => runProg k)
  | .cache _ _ k => view (fun v => bindV (update (fun _ => rfl)) (fun _ => runProg (k _)))
  | .cachedValue _ k => view (fun v => runProg (k _))
  | .scopeGet _ k => view (fun v => runProg (k _))

theorem KeepsIc.callLk (f : LkFn) (hf : NoMux f) (o : Entries) (k : Str) : KeepsIc _ (callLk E rec f o k) (callLk E rec f o k) := by
  cases f with
  | config => exact configAt hF hr _ o k _
  | mux => exact hf.elim
  | env => exact coreV.pure _
  | scope => exact view (fun _ => coreV.pure _)
  | yaml =>
    refine view (fun v => ?_)
    split
    · exact coreV.pure _
    · exact coreV.panic _
    · exact bindV (coreV.lift _) (fun _ => bindV (update (fun _ => rfl)) (fun _ => coreV.pure _))
  | module =>
    show KeepsIc _ (moduleLookup E rec o k) (moduleLookup E rec o k)
    unfold moduleLookup
    split
    · exact coreV.pure _
    · exact coreV.pure _
    · refine bindV (coreV.lift _) (fun mp => coreV.withNode _ ?_)
      cases mp with
      | none => exact bindV (coreV.report _ (by grows)) (fun _ => coreV.pure _)
      | some cp => exact configAt hF hr _ _ _ _
  | custom f => exact runProg hr _
  | notFunction => exact coreV.pure _

theorem KeepsIc.lookup (ht : NoMux E.top) (k : Key) (o : Entries) : KeepsIc _ (lookup E rec k o) (lookup E rec k o) := by
  unfold Hiera.lookup
  split
  · exact coreV.withNode _ (bindV (coreV.report _ (by grows)) (fun _ => coreV.pure _))
  · refine bindV (callLk hF hr _ ht o _) (fun v => ?_)
    cases v with
    | none => exact coreV.pure _
    | some v =>
      exact forData (bindV (coreV.toCore.interpolate hr.interp (fun _ => hr.lookup) E v) (fun r => coreV.toCore.dig k r))

end

theorem KeepsIc.eval {E : Env} (hF : ∀ e n f, loadFunction E e n = .ok (some (.key f)) → NoMux f) (ht : NoMux E.top) (n : Nat) :
    RecRelOn KeepsIc KeepsIc NoMux (eval E n) (eval E n) := by
  induction n with
  | zero => exact ⟨fun _ _ => hang, fun _ => hang, fun _ => hang, fun _ _ _ _ => hang⟩
  | succ n ih =>
    exact ⟨fun k o => lookup hF ih ht k o, fun v => coreV.toCore.interp ih.interp (fun _ => ih.lookup) E v,
      fun v => coreV.toCore.interp ih.interpC (fun h => nomatch h) E v, fun f o k hf => callLk hF ih f hf o k⟩

end Hiera
