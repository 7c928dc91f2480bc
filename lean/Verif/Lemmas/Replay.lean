/- What providers have read stays read: a computation that succeeded succeeds again with the same result, from any state
that still knows the data, whatever the files are now. -/
import Verif.Lemmas.Coherent
import Verif.Lemmas.Steady
import Verif.Spec.Files

set_option autoImplicit false

namespace Hiera

open Spec

/-- The data that is known in `s` is known in `t`. -/
def Knows (s t : St) : Prop := ∀ k h, assoc k s.v.hashes = some h → assoc k t.v.hashes = some h

theorem Knows.refl (s : St) : Knows s s := fun _ _ h => h
theorem Knows.trans {s t u : St} (h : Knows s t) (g : Knows t u) : Knows s u := fun k x hk => g k x (h k x hk)

/-- Equal but for memories and the explanation. -/
def Like (s t : St) : Prop := t.on = s.on ∧ ∃ x : Mem, t.v = s.v.withMem x

theorem Like.refl (s : St) : Like s s := ⟨rfl, s.v.mem, rfl⟩

/-- `m`, from a state with a resolved configuration, only adds to what is known; and where it succeeds, `m'` gives the same
from all states that know what is known then, and learns nothing. -/
def Rep (E : Env) : Rel := fun α m m' => ∀ s r u, Resolved E s → m s = some (r, u) → Resolved E u ∧ Knows s u ∧
  ∀ a : α, r = .ok a → ∀ t, Like s t → Knows u t → ∃ t', m' t = some (.ok a, t') ∧ Like u t' ∧ t'.v.hashes = t.v.hashes

theorem Rep.core (E : Env) : Core (Rep E) where
  pure := by
    intro α a s r u hs h
    cases h
    exact ⟨hs, .refl _, fun b hb t hl _ => by cases hb; exact ⟨t, rfl, hl, rfl⟩⟩
  bind := by
    intro α β m m' f f' hm hf s r u hs h
    rw [bind_def] at h
    cases hms : m s with
    | none => rw [hms] at h; cases h
    | some x =>
      obtain ⟨a | e, w⟩ := x
      · rw [hms] at h
        obtain ⟨h1, h2, h3⟩ := hm s _ _ hs hms
        obtain ⟨h4, h5, h6⟩ := hf a w r u h1 h
        refine ⟨h4, h2.trans h5, fun b hb t hl hk => ?_⟩
        obtain ⟨t1, g1, g2, g3⟩ := h3 a rfl t hl (h5.trans hk)
        obtain ⟨t2, g4, g5, g6⟩ := h6 b hb t1 g2 (fun k x hx => by rw [g3]; exact hk k x hx)
        exact ⟨t2, by rw [bind_ok g1]; exact g4, g5, g6.trans g3⟩
      · rw [hms] at h
        cases h
        obtain ⟨h1, h2, _⟩ := hm s _ _ hs hms
        exact ⟨h1, h2, fun b hb => nomatch hb⟩
  panic := by
    intro α e s r u hs h
    cases h
    exact ⟨hs, .refl _, fun b hb => nomatch hb⟩
  viewBind := by
    intro β f f' hf s r u hs h
    rw [bind_ok (show view s = some (.ok s.v, s) from rfl)] at h
    obtain ⟨h1, h2, _⟩ := hf s.v s.v.mem s r u hs h
    refine ⟨h1, h2, fun a ha t hl hk => ?_⟩
    obtain ⟨x, hx⟩ := hl.2
    obtain ⟨_, _, h3⟩ := hf s.v x s r u hs h
    obtain ⟨t', g1, g2⟩ := h3 a ha t hl hk
    exact ⟨t', by rw [bind_ok (show view t = some (.ok t.v, t) from rfl), hx]; exact g1, g2⟩
  withNode := by
    intro α m m' n hm s r u hs h
    unfold Hiera.withNode at h
    rw [if_pos (by rw [hs.1]; rfl)] at h
    obtain ⟨h1, h2, h3⟩ := hm s r u hs h
    refine ⟨h1, h2, fun a ha t hl hk => ?_⟩
    obtain ⟨t', g1, g2⟩ := h3 a ha t hl hk
    refine ⟨t', ?_, g2⟩
    unfold Hiera.withNode
    rw [if_pos (by rw [hl.1, hs.1]; rfl)]
    exact g1
  report := by
    intro f _ s r u hs h
    unfold Hiera.report at h
    rw [if_pos (by rw [hs.1]; rfl)] at h
    cases h
    refine ⟨hs, .refl _, fun a ha t hl hk => ⟨t, ?_, hl, rfl⟩⟩
    cases ha
    unfold Hiera.report
    rw [if_pos (by rw [hl.1, hs.1]; rfl)]

theorem Rep.hang (E : Env) (α : Type) : Rep E α Hiera.hang Hiera.hang := fun _ _ _ _ h => nomatch h

/-- A change of the state that is the same whatever the memories are. -/
theorem Rep.update {E : Env} {f : View → View} (hc : ∀ v, (f v).configs = v.configs) (hh : ∀ v, (f v).hashes = v.hashes)
    (hx : ∀ v (x : Mem), ∃ y : Mem, f (v.withMem x) = (f v).withMem y) : Rep E Unit (update f) (update f) := by
  intro s r u hs h
  cases h
  refine ⟨⟨hs.1, by show (assoc _ (f s.v).configs).isSome = true; rw [hc]; exact hs.2⟩, fun k x hk => ?_, fun a ha t hl hk => ?_⟩
  · show assoc k (f s.v).hashes = _
    rw [hh]; exact hk
  · obtain ⟨x, e⟩ := hl.2
    obtain ⟨y, hy⟩ := hx s.v x
    exact ⟨_, rfl, ⟨hl.1, y, by show f t.v = _; rw [e]; exact hy⟩, hh t.v⟩

theorem Rep.withCopy {E : Env} {α : Type} {m m' : M α} (f : Ic → Ic) (g : Option ExplOpts → Option ExplOpts) (hg : g none = none)
    (hm : Rep E α m m') : Rep E α (withCopy f g m) (withCopy f g m') := by
  intro s r u hs h
  unfold Hiera.withCopy at h
  cases hms : m { s with v := { s.v with ic := f s.v.ic }, on := g s.on } with
  | none => rw [hms] at h; cases h
  | some z =>
    rw [hms] at h
    cases h
    obtain ⟨h1, h2, h3⟩ := hm _ _ _ (⟨by show g s.on = none; rw [hs.1, hg], hs.2⟩ : Resolved E { s with v := { s.v with ic := f s.v.ic }, on := g s.on }) hms
    refine ⟨⟨hs.1, h1.2⟩, h2, fun a ha t hl hk => ?_⟩
    obtain ⟨x, e⟩ := hl.2
    obtain ⟨t', g1, g2, g3⟩ := h3 a ha { t with v := { t.v with ic := f t.v.ic }, on := g t.on }
      ⟨by show g t.on = g s.on; rw [hl.1], x, by show { t.v with ic := f t.v.ic } = _; rw [e]; rfl⟩ hk
    obtain ⟨y, e'⟩ := g2.2
    refine ⟨{ t' with v := { t'.v with ic := t.v.ic }, on := t.on }, by unfold Hiera.withCopy; rw [g1], ⟨hl.1, y, ?_⟩, g3⟩
    show { t'.v with ic := t.v.ic } = _
    rw [e', e]
    rfl

theorem Rep.viewIf {E : Env} {α : Type} {m m' w w' : M α} {md : Mode} (hm : Rep E α m m') (hw : Rep E α w w') :
    Rep E α (view >>= fun v => if v.ic.mode = md then m else w) (view >>= fun v => if v.ic.mode = md then m' else w') := by
  refine (Rep.core E).viewBind (fun v x => ?_)
  show Rep E α (if v.ic.mode = md then m else w) (if v.ic.mode = md then m' else w')
  split
  · exact hm
  · exact hw

theorem Rep.forData {E : Env} {α : Type} {m m' : M α} (hm : Rep E α m m') : Rep E α (Hiera.forData m) (Hiera.forData m') :=
  Rep.viewIf hm (Rep.withCopy _ _ rfl hm)

theorem Rep.forLookupOptions {E : Env} {α : Type} {m m' : M α} (hm : Rep E α m m') :
    Rep E α (Hiera.forLookupOptions m) (Hiera.forLookupOptions m') :=
  Rep.viewIf hm (Rep.withCopy _ _ rfl hm)

theorem Rep.doRedacted {E : Env} {α : Type} {m m' : M α} (hm : Rep E α m m') : Rep E α (Hiera.doRedacted m) (Hiera.doRedacted m') := by
  intro s r u hs h
  unfold Hiera.doRedacted at h
  split at h
  · rename_i hr
    obtain ⟨h1, h2, h3⟩ := hm s r u hs h
    refine ⟨h1, h2, fun a ha t hl hk => ?_⟩
    obtain ⟨t', g1, g2⟩ := h3 a ha t hl hk
    obtain ⟨x, e⟩ := hl.2
    exact ⟨t', by unfold Hiera.doRedacted; rw [if_pos (by rw [e]; exact hr)]; exact g1, g2⟩
  · rename_i hr
    cases hms : m { s with v := { s.v with ic := { s.v.ic with redacted := true } } } with
    | none => rw [hms] at h; cases h
    | some z =>
      rw [hms] at h
      cases h
      obtain ⟨h1, h2, h3⟩ := hm { s with v := { s.v with ic := { s.v.ic with redacted := true } } } _ _ hs hms
      refine ⟨h1, h2, fun a ha t hl hk => ?_⟩
      obtain ⟨x, e⟩ := hl.2
      obtain ⟨t', g1, g2, g3⟩ := h3 a ha { t with v := { t.v with ic := { t.v.ic with redacted := true } } }
        ⟨hl.1, x, by show { t.v with ic := { t.v.ic with redacted := true } } = _; rw [e]; rfl⟩ hk
      obtain ⟨y, e'⟩ := g2.2
      refine ⟨{ t' with v := { t'.v with ic := { t'.v.ic with redacted := false } } }, by unfold Hiera.doRedacted; rw [if_neg (by rw [e]; exact hr), g1], ⟨g2.1, y, ?_⟩, g3⟩
      show { t'.v with ic := { t'.v.ic with redacted := false } } = _
      rw [e']
      rfl

theorem Rep.emit {E : Env} (e : Ev) : Rep E Unit (Hiera.emit e) (Hiera.emit e) :=
  Rep.update (fun _ => rfl) (fun _ => rfl) (fun v x => ⟨{ x with trace := x.trace ++ [e] }, rfl⟩)

theorem Rep.loadOnce {E : Env} (E1 E2 : Env) (p : Prov) (n : Str) (he : loadFunction E1 p.entry n = loadFunction E2 p.entry n) :
    Rep E _ (Hiera.loadOnce E1 p n) (Hiera.loadOnce E2 p n) := by
  intro s r u hs h
  obtain ⟨l, h1⟩ := loadOnce_run E1 p n s hs.1
  rw [h1] at h
  cases h
  refine ⟨hs, .refl _, fun a ha t hl hk => ?_⟩
  obtain ⟨l', h2⟩ := loadOnce_run E2 p n t (hl.1.trans hs.1)
  obtain ⟨x, e⟩ := hl.2
  refine ⟨{ t with v := { t.v with loaded := l' } }, by rw [h2, ← he, ha], ⟨hl.1, { x with loaded := l' }, ?_⟩, rfl⟩
  show { t.v with loaded := l' } = _
  rw [e]; rfl

/-- Data that has been read is not read again, so the files do not matter. -/
theorem Rep.dataHash {E : Env} (E1 E2 : Env) (p : Prov) (n : Str) (loc : Option Loc) :
    Rep E _ (Hiera.dataHash E1 p n loc) (Hiera.dataHash E2 p n loc) := by
  have e : ∀ E', Hiera.dataHash E' p n loc = (view >>= fun v => match assoc (p, hashKey loc) v.hashes with
      | some h => pure h
      | none => callHash E' p n (optionsFor p loc) >>= fun h =>
        Hiera.update (fun w => { w with hashes := ((p, hashKey loc), h) :: w.hashes }) >>= fun _ => pure h) := by
    intro E'
    unfold Hiera.dataHash hashKey
    cases loc <;> rfl
  have known : ∀ (t : St) h, assoc (p, hashKey loc) t.v.hashes = some h → Hiera.dataHash E2 p n loc t = some (.ok h, t) := by
    intro t h ht
    rw [e, bind_ok (show view t = some (.ok t.v, t) from rfl), ht]
    rfl
  intro s r u hs h
  rw [e, bind_ok (show view s = some (.ok s.v, s) from rfl)] at h
  cases ha : assoc (p, hashKey loc) s.v.hashes with
  | some d =>
    rw [ha] at h
    cases h
    exact ⟨hs, .refl _, fun a hr t hl hk => by cases hr; exact ⟨t, known t d (hk _ _ ha), hl, rfl⟩⟩
  | none =>
    rw [ha] at h
    dsimp only at h
    obtain ⟨ld, tr, hc⟩ := callHash_run E1 p n (optionsFor p loc) s hs.1
    cases hh : hashOf E1 p n (optionsFor p loc) with
    | panic er =>
      rw [hh] at hc
      rw [bind_panic hc] at h
      cases h
      exact ⟨hs, .refl _, fun a hr => nomatch hr⟩
    | ok d =>
      rw [hh] at hc
      rw [bind_ok hc] at h
      cases h
      refine ⟨hs, fun k x hk => ?_, fun a hr t hl hk => ?_⟩
      · show assoc k (((p, hashKey loc), d) :: s.v.hashes) = some x
        unfold assoc
        split
        · rename_i hkk
          have hk : assoc k s.v.hashes = some x := hk
          rw [hkk, ha] at hk; cases hk
        · exact hk
      · cases hr
        refine ⟨t, known t d (hk _ _ ?_), ?_, rfl⟩
        · show assoc _ (((p, hashKey loc), d) :: s.v.hashes) = some d
          unfold assoc
          rw [if_pos rfl]
        · obtain ⟨x, e⟩ := hl.2
          exact ⟨hl.1, x, by rw [e]; rfl⟩

theorem Rep.config {E : Env} (E1 E2 : Env) (h1 : E1.configPath = E.configPath) (h2 : E2.configPath = E.configPath) (rec rec' : Rec) :
    Rep E _ (config E1 rec E.configPath []) (config E2 rec' E.configPath []) := by
  intro s r u hs h
  obtain ⟨rc, hrc⟩ := Option.isSome_iff_exists.1 hs.2
  have e := config_path (E := E1) rec [] s (rc := rc) (by rw [h1]; exact hrc)
  rw [h1] at e
  rw [e] at h
  cases h
  refine ⟨hs, .refl _, fun a hr t hl hk => ?_⟩
  cases hr
  obtain ⟨x, ex⟩ := hl.2
  have e := config_path (E := E2) rec' [] t (rc := rc) (by rw [h2, ex]; exact hrc)
  rw [h2] at e
  exact ⟨t, e, hl, rfl⟩

theorem Rep.asking {E : Env} (ht : TameEnv E) : Asking E (Rep E) Tame Fits where
  toCore := Rep.core E
  loadOnce := fun _ _ => Rep.loadOnce E E _ _ rfl
  emitDig := fun _ _ => Rep.emit _
  emitKey := fun _ _ _ => Rep.emit _
  dataHash := fun p n loc _ => Rep.dataHash E E p n loc
  keyFn := ht.keyFn
  fits := fun _ _ _ h => h

theorem Rep.shape {E : Env} (ht : TameEnv E) : Shape E (Rep E) (Rep E) where
  r := Rep.asking ht
  d := Rep.asking ht
  setLuOpts := fun _ => Rep.update (fun _ => rfl) (fun _ => rfl) (fun _ x => ⟨x, rfl⟩)
  setStrategy := fun _ => Rep.update (fun _ => rfl) (fun _ => rfl) (fun _ x => ⟨x, rfl⟩)
  redacted := Rep.doRedacted
  optionsR := Rep.forLookupOptions
  dataD := Rep.forData
  dataR := Rep.forData
  config := fun _ => Rep.config E E rfl rfl _ _
  tame := ht

/-! ### The parts of the evaluator that the files matter for -/

section
variable {E : Env} (f : Files)

theorem interpToks_readingFiles (rec : Rec) (str : Str) (a : Bool) (ts : List Tok) (st : IplState) :
    interpToks (readingFiles E f) rec str a ts st = interpToks E rec str a ts st := by
  induction ts generalizing st with
  | nil => rfl
  | cons t ts ih =>
    cases t with
    | chr _ => exact ih _
    | expr e =>
      show (interpExpr (readingFiles E f) rec str a e st >>= fun st => interpToks (readingFiles E f) rec str a ts st) = _
      simp only [ih]
      rfl

theorem interpStr_readingFiles (rec : Rec) (x : Str) (a : Bool) : interpStr (readingFiles E f) rec x a = interpStr E rec x a := by
  unfold interpStr
  simp only [interpToks_readingFiles]

mutual
theorem interp_readingFiles (rec : Rec) (a : Bool) (v : Value) : interp (readingFiles E f) rec a v = interp E rec a v := by
  cases v with
  | arr vs => unfold interp; rw [interpList_readingFiles rec a vs]
  | map es => unfold interp; rw [interpMap_readingFiles rec a [] es]
  | str x => unfold interp; exact interpStr_readingFiles f rec x a
  | _ => rfl
theorem interpList_readingFiles (rec : Rec) (a : Bool) (vs : List Value) : interpList (readingFiles E f) rec a vs = interpList E rec a vs := by
  cases vs with
  | nil => rfl
  | cons v vs => unfold interpList; rw [interp_readingFiles rec a v, interpList_readingFiles rec a vs]
theorem interpMap_readingFiles (rec : Rec) (a : Bool) (xs : Entries) (es : List (Value × Value)) :
    interpMap (readingFiles E f) rec a xs es = interpMap E rec a xs es := by
  match es with
  | [] => rfl
  | (k, v) :: es =>
    unfold interpMap
    simp only [interp_readingFiles rec a k, interp_readingFiles rec a v, interpMap_readingFiles rec a _ es]
end

theorem interpolate_readingFiles (rec : Rec) (a : Bool) (v : Value) : interpolate (readingFiles E f) rec a v = interpolate E rec a v := by
  unfold interpolate
  rw [interp_readingFiles]

theorem loadOnce_readingFiles (p : Prov) (n : Str) : loadOnce (readingFiles E f) p n = loadOnce E p n := rfl

theorem lookupAndConvert_readingFiles (m : M (Option Value)) : lookupAndConvert (readingFiles E f) m = lookupAndConvert E m := rfl

theorem runProg_readingFiles (rec : Rec) (p : Prog) : runProg (readingFiles E f) rec p = runProg E rec p := by
  induction p with
  | ret v => rfl
  | panic e => rfl
  | interpolate v k ih => simp only [runProg, interpolate_readingFiles, ih]
  | lookup key o k ih => simp only [runProg, ih]
  | explain t k ih => simp only [runProg, ih]
  | cache key x k ih => simp only [runProg, ih]
  | cachedValue key k ih => simp only [runProg, ih]
  | scopeGet key k ih => simp only [runProg, ih]

theorem muxLookup_readingFiles (rec : Rec) (o : Entries) (k : Str) : muxLookup (readingFiles E f) rec o k = muxLookup E rec o k := rfl

variable (ht : TameEnv E) {rec rec' : Rec} (hr : RecRelOn (Rep E) (Rep E) Tame rec rec')
include ht hr

theorem Rep.provLookup (p : Prov) (loc : Option Loc) (k : Key)
    (hfit : ∀ n, p.entry.function = some (.dataHash, n) → Fits p n loc) :
    Rep E _ (provLookup E rec p loc k) (provLookup (readingFiles E f) rec' p loc k) := by
  have h := Rep.asking ht
  have h0 := h.provLookup hr p loc k hfit
  unfold Hiera.provLookup at h0 ⊢
  rcases hfn : p.entry.function with _ | ⟨kind, n⟩
  · exact h.panic _
  · rw [hfn] at h0
    cases kind with
    | dataHash =>
      refine h.bind (Rep.dataHash E (readingFiles E f) p n loc) (fun hs => ?_)
      cases Entries.getS hs k.root with
      | none => exact h.reportResult _ _
      | some x =>
        dsimp only
        rw [interpolate_readingFiles]
        exact h.bind (h.interpolate hr.interp hr.lookup x) (fun r => h.reportResult _ _)
    | dataDig => exact h0
    | lookupKey => exact h0

theorem Rep.invokeWithLocation (p : Prov) (k : Key) (l : Loc)
    (hfit : ∀ n, p.entry.function = some (.dataHash, n) → Fits p n (some l)) :
    Rep E _ (invokeWithLocation E rec p k l) (invokeWithLocation (readingFiles E f) rec' p k l) := by
  have h := Rep.asking ht
  refine h.withNode _ ?_
  by_cases he : l.exists_ = true
  · rw [if_pos he, if_pos he]; exact Rep.provLookup f ht hr _ _ _ hfit
  · rw [if_neg he, if_neg he]; exact h.bind (h.report _ (by grows)) (fun _ => h.pure _)

theorem Rep.mergeLocations (k : Key) (st : Strategy) (p : Prov) :
    Rep E _ (mergeLocations E rec k st p) (mergeLocations (readingFiles E f) rec' k st p) := by
  have h := Rep.asking ht
  refine h.withNode _ ?_
  rcases hls : p.entry.locations with _ | ls
  · exact Rep.provLookup f ht hr _ _ _ (fun n hn => ⟨hn, by rw [hls]; rfl⟩)
  · match ls with
    | [] => exact h.pure _
    | [l] => exact Rep.invokeWithLocation f ht hr _ _ _ (fun n hn => ⟨hn, by rw [hls]; rfl⟩)
    | l :: l' :: ls => exact h.mergeM _ _ _ _ (fun a _ => Rep.invokeWithLocation f ht hr _ _ _ (fun n hn => ⟨hn, by rw [hls]; rfl⟩))

theorem Rep.mergeHierarchy (k : Key) (ps : List Prov) (st : Strategy) :
    Rep E _ (mergeHierarchy E rec k ps st) (mergeHierarchy (readingFiles E f) rec' k ps st) :=
  (Rep.asking ht).mergeM _ _ _ _ (fun _ _ => Rep.mergeLocations f ht hr _ _ _)

theorem Rep.configAt (opts : Entries) (key : Str) :
    Rep E _ (configAt E rec E.configPath opts key []) (configAt (readingFiles E f) rec' E.configPath opts key []) := by
  have h := Rep.shape ht
  unfold Hiera.configAt
  refine h.r.bind (Rep.config E (readingFiles E f) rfl rfl rec rec') (fun cfg => h.r.bind (h.r.lift _) (fun k => h.r.viewBind (fun v mm => ?_)))
  simp only [View.withMem]
  cases v.ic.mode
  · exact Rep.forData (h.r.withNode _ (h.r.bind (h.setMergeStrategy _ _) (fun _ => by
      rw [lookupAndConvert_readingFiles]
      exact h.lookupAndConvert (h.r.bind h.r.currentStrategy (fun st => Rep.mergeHierarchy f ht hr _ _ _)))))
  · exact h.r.pure _
  · exact h.r.bind h.r.currentStrategy (fun st => Rep.mergeHierarchy f ht hr _ _ _)

theorem Rep.callLk (g : LkFn) (opts : Entries) (key : Str) (hg : Tame g) :
    Rep E _ (callLk E rec g opts key) (callLk (readingFiles E f) rec' g opts key) := by
  have h := Rep.shape ht
  have h0 := h.callLk hr hr g opts key hg
  cases g with
  | config => exact Rep.configAt f ht hr _ _
  | mux => exact h0
  | env => exact h0
  | scope => exact h0
  | yaml => exact hg.elim
  | module => exact hg.elim
  | custom p =>
    show Rep E _ _ (runProg (readingFiles E f) rec' (p opts key))
    rw [runProg_readingFiles]
    exact h0
  | notFunction => exact h0

theorem Rep.lookup (key : Key) (opts : Entries) :
    Rep E _ (lookup E rec key opts) (lookup (readingFiles E f) rec' key opts) := by
  have h := Rep.shape ht
  unfold Hiera.lookup
  by_cases hk : key.root = "lookup_options".toList
  · rw [if_pos hk, if_pos hk]
    exact h.r.withNode _ (h.r.bind (h.r.report _ (by grows)) (fun _ => h.r.pure _))
  · rw [if_neg hk, if_neg hk]
    refine h.r.bind (Rep.callLk f ht hr _ _ _ ht.top) (fun r => ?_)
    cases r with
    | none => exact h.r.pure _
    | some x =>
      dsimp only
      rw [interpolate_readingFiles]
      exact Rep.forData (h.r.bind (h.r.interpolate hr.interp hr.lookup _) (fun r => h.r.dig _ _))

theorem Rep.step : RecRelOn (Rep E) (Rep E) Tame (step E rec) (step (readingFiles E f) rec') where
  lookup := Rep.lookup f ht hr
  interp := fun v => by
    show Rep E _ _ (interp (readingFiles E f) rec' true v)
    rw [interp_readingFiles]
    exact (Rep.shape ht).interp hr v true
  interpC := fun v => by
    show Rep E _ _ (interp (readingFiles E f) rec' false v)
    rw [interp_readingFiles]
    exact (Rep.shape ht).interp hr v false
  lkOn := fun g o k hg => Rep.callLk f ht hr g o k hg
end

theorem Rep.eval {E : Env} (ht : TameEnv E) (f : Files) (n : Nat) :
    RecRelOn (Rep E) (Rep E) Tame (eval E n) (eval (readingFiles E f) n) := by
  induction n with
  | zero => exact ⟨fun _ _ => Rep.hang E _, fun _ => Rep.hang E _, fun _ => Rep.hang E _, fun _ _ _ _ => Rep.hang E _⟩
  | succ n ih => exact Rep.step f ht ih

end Hiera
