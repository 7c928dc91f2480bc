/- In a session without a configuration, the evaluator has the outcomes of `Spec/TopProvider.lean`. -/
import Verif.Spec.TopProvider
import Verif.Lemmas.Reference
import Verif.Lemmas.Map

set_option linter.unusedSectionVars false

set_option autoImplicit false

namespace Hiera
open Spec

theorem fileData_theFile (E : Env) : fileData E E.readYaml [(.str "path".toList, E.yamlPath.getD .null)] = theFile E := by
  have h : Entries.getS [(Value.str "path".toList, E.yamlPath.getD .null)] "path".toList = some (E.yamlPath.getD .null) := by
    simp [Entries.getS, Entries.get, List.find?]
  unfold fileData theFile
  simp only [h]
  cases E.readYaml (E.toStr (E.yamlPath.getD .null)) with
  | value v => cases v <;> rfl
  | _ => rfl

/-- What the cache has of the file, if anything, is `file`; else the file is still to be read. -/
def FileIs (E : Env) (file : Res Entries) (s : St) : Prop :=
  (∃ es, assoc "yaml::data".toList s.v.cache = some (.map es) ∧ file = .ok es) ∨
  (assoc "yaml::data".toList s.v.cache = none ∧ file = theFile E)

/-- No explainer, the variables of the reference, and the file of the reference. -/
structure InvTop (E : Env) (file : Res Entries) (C : Ctx) (s : St) : Prop where
  on : s.on = none
  scope : s.v.ic.scope = C.scope
  file : FileIs E file s

instance (E : Env) (file : Res Entries) : AsMeant (InvTop E file) := ⟨fun h => h.on, fun h => h.scope⟩

theorem InvTop.any {E : Env} {file : Res Entries} {C : Ctx} {s : St} (hs : InvTop E file C s) (C' : Ctx) (hC : C'.scope = C.scope) :
    InvTop E file C' s := ⟨hs.on, by rw [hC]; exact hs.scope, hs.file⟩

theorem InvTop.withMode {E : Env} {file : Res Entries} {C : Ctx} {s : St} (hs : InvTop E file C s) (ic : Ic)
    (hi : ic.scope = s.v.ic.scope) (on : Option ExplOpts) (ho : on = none) :
    InvTop E file C { s with v := { s.v with ic := ic }, on := on } :=
  ⟨ho, by show ic.scope = _; rw [hi]; exact hs.scope, hs.file⟩

section
variable {E : Env} {file : Res Entries} {C : Ctx}

theorem SimG.withinTop {α β : Type} {Q : α → β → Prop} {m : M α} {x : Ans β} (w : Within)
    (h : SimG (InvTop E file) { C with within := w } Q m x) : SimG (InvTop E file) C Q m x := by
  intro s hs
  have := h s (hs.any _ rfl)
  match x, this with
  | none, h => exact h
  | some (.ok b), ⟨a, t, h, q, ht⟩ => exact ⟨a, t, h, q, ht.any _ rfl⟩
  | some (.panic e), h => exact h

theorem withCopy_simTop {α β : Type} {Q : α → β → Prop} {m : M α} {x : Ans β} (f : Ic → Ic) (g : Option ExplOpts → Option ExplOpts)
    (hf : ∀ ic, (f ic).scope = ic.scope) (hg : g none = none) (h : SimG (InvTop E file) C Q m x) :
    SimG (InvTop E file) C Q (withCopy f g m) x := by
  intro s hs
  unfold withCopy
  have h1 := h _ (hs.withMode (f s.v.ic) (hf _) (g s.on) (by rw [hs.on, hg]))
  match x, h1 with
  | none, h1 => rw [h1]
  | some (.panic e), ⟨t, h1⟩ => rw [h1]; exact ⟨_, rfl⟩
  | some (.ok b), ⟨a, t, h1, q, ht⟩ =>
    rw [h1]
    exact ⟨a, _, rfl, q, ht.withMode s.v.ic (by rw [ht.scope, hs.scope]) s.on hs.on⟩

theorem forOptions_simTop {α β : Type} {Q : α → β → Prop} {m : M α} {x : Ans β} (h : SimG (InvTop E file) C Q m x) :
    SimG (InvTop E file) C Q (forLookupOptions m) x := by
  unfold forLookupOptions
  refine .view (fun v _ => ?_)
  split
  · exact h
  · exact withCopy_simTop _ _ (fun _ => rfl) rfl h

theorem forData_simTop {α β : Type} {Q : α → β → Prop} {m : M α} {x : Ans β} (h : SimG (InvTop E file) C Q m x) :
    SimG (InvTop E file) C Q (forData m) x := by
  unfold forData
  refine .view (fun v _ => ?_)
  split
  · exact h
  · exact withCopy_simTop _ _ (fun _ => rfl) rfl h

theorem yamlLookup_top (key : Str) : SimH (InvTop E file) C (yamlLookup E key) (do
    let es ← Ans.of file
    pure (Entries.getS es key)) := by
  intro s hs
  unfold yamlLookup
  rw [bind_ok (show view s = some (.ok s.v, s) from rfl)]
  rcases hs.file with ⟨es, h1, h2⟩ | ⟨h1, h2⟩
  · rw [h1, h2]
    exact ⟨_, s, rfl, rfl, h2 ▸ hs⟩
  · rw [h1]
    dsimp only
    rw [fileData_theFile]
    subst h2
    cases hf : theFile E with
    | panic e => exact ⟨s, rfl⟩
    | ok es =>
      refine ⟨_, _, rfl, rfl, hs.on, hs.scope, .inl ⟨es, ?_, rfl⟩⟩
      simp [assoc]

end

/-- The recursive calls have the outcomes of the reference. -/
structure RecSimTop (E : Env) (file : Res Entries) (rec : Rec) (r : Ref) : Prop extends RecSimG (InvTop E file) (fun _ => True) rec r where
  call : ∀ C f o k, Unconfigured f → SimH (InvTop E file) C (rec.lk f o k) (r.call C f o k)

section
variable {E : Env} {file : Res Entries} {rec : Rec} {r : Ref} (hr : RecSimTop E file rec r) {C : Ctx}
include hr

theorem muxLookup_top (hfs : ∀ fs, E.muxFns = some fs → ∀ f ∈ fs, Unconfigured f) (opts : Entries) (key : Str) :
    SimH (InvTop E file) C (muxLookup E rec opts key) (refMux E r C opts key) := by
  unfold muxLookup refMux
  cases he : E.muxFns with
  | none => exact .pure rfl
  | some fs =>
    dsimp only
    have merge : ∀ (st : Strategy) (w : Within), SimH (InvTop E file) C (mergeM st fs (fun f => rec.lk f opts key))
        (refMerge st (fs.map (fun f => r.call { C with within := w } f opts key))) := fun st w =>
      mergeM_sim st fs _ _ (fun f hf => .withinTop w (hr.call _ f opts key (hfs fs he f hf)))
    refine .bindE (forOptions_simTop (merge _ _)) (fun lo => forData_simTop ?_)
    intro s hs
    cases hk : newKey key with
    | panic e => exact ⟨s, rfl⟩
    | ok k =>
      rw [M.lift_ok_bind, Quiet.off_withNode hs.on, Ans.of_ok_bind, bind_def, setMergeStrategy_quiet opts (asMap lo) s hs.on]
      cases hg : getStrategy (strategyNamed (refMergeOption opts (asMap lo))).1 (strategyNamed (refMergeOption opts (asMap lo))).2 with
      | panic e => exact ⟨_, rfl⟩
      | ok st =>
        rw [Ans.of_ok_bind]
        dsimp only
        have hi1 := hs.withMode { s.v.ic with luOpts := asMap lo, strategy := some st } rfl s.on hs.on
        generalize hs1 : ({ s with v := { s.v with ic := { s.v.ic with luOpts := asMap lo, strategy := some st } } } : St) = s1
        have hi2 : InvTop E file C s1 := by rw [← hs1]; exact hi1
        have hlu : s1.v.ic.luOpts = asMap lo := by rw [← hs1]
        have hst : s1.v.ic.strategy = some st := by rw [← hs1]
        unfold lookupAndConvert
        rw [bind_ok (show view s1 = some (.ok s1.v, s1) from rfl), hlu]
        cases hx : extractConversion E (asMap lo) with
        | panic e => exact ⟨s1, rfl⟩
        | ok c =>
          rw [M.lift_ok_bind, Ans.of_ok_bind]
          have inner : ∀ u : St, InvTop E file C u → u.v.ic.strategy = some st → FollowsG (InvTop E file) C Eq
              ((currentStrategy >>= fun st => mergeM st fs (fun f => rec.lk f opts key)) u)
              (refMerge st (fs.map (fun f => r.call { C with within := .value (some st) } f opts key))) := by
            intro u hu h2
            rw [bind_ok (show currentStrategy u = some (.ok st, u) by
              unfold currentStrategy
              rw [bind_ok (show view u = some (.ok u.v, u) from rfl), h2]
              rfl)]
            exact merge st _ u hu
          generalize refMerge st (fs.map (fun f => r.call { C with within := .value (some st) } f opts key)) = X at inner ⊢
          have red : FollowsG (InvTop E file) C Eq (maybeRedacted E c (currentStrategy >>= fun st => mergeM st fs (fun f => rec.lk f opts key)) s1) X := by
            have plain := inner s1 hi2 hst
            unfold maybeRedacted
            rcases c with _ | ⟨t, as⟩
            · exact plain
            · dsimp only
              split
              · unfold doRedacted
                by_cases hd : s1.v.ic.redacted = true
                · rw [if_pos hd]; exact plain
                · rw [if_neg hd]
                  have h1 := inner _ (hi2.withMode { s1.v.ic with redacted := true } rfl s1.on hi2.on) hst
                  match X, h1 with
                  | none, h1 => rw [h1]
                  | some (.ok b), ⟨a, t, h1, q, ht⟩ =>
                    rw [h1]
                    exact ⟨a, _, rfl, q, ht.withMode { t.v.ic with redacted := false } rfl t.on ht.on⟩
                  | some (.panic e), ⟨t, h1⟩ => rw [h1]; exact ⟨_, rfl⟩
              · exact plain
          match X, red with
          | none, h => exact bind_none h
          | some (.panic e), ⟨t, h⟩ => exact ⟨t, bind_panic h⟩
          | some (.ok b), ⟨a, t, h, q, ht⟩ =>
            subst q
            rw [bind_ok h]
            exact SimG.of (convert E a c) t ht

theorem callLk_top (f : LkFn) (hf : Unconfigured f) (o : Entries) (k : Str) :
    SimH (InvTop E file) C (callLk E rec f o k) (topCall E file r C f o k) := by
  cases f with
  | env => exact .pure rfl
  | scope =>
    refine .view (fun v hv => ?_)
    rw [hv]
    exact .pure rfl
  | yaml => exact yamlLookup_top k
  | custom f => exact runProg_sim hr.toRecSimG trivial (hf o k)
  | notFunction => exact .pure rfl
  | config => exact hf.elim
  | mux => exact hf.elim
  | module => exact hf.elim

theorem lookup_top (he : PlainTop E) (k : Key) (o : Entries) :
    SimH (InvTop E file) C (lookup E rec k o) (topLookup E file r C k o) := by
  unfold lookup topLookup
  split
  · exact .node _ (.report _ (.pure rfl))
  · have h1 : SimH (InvTop E file) C (callLk E rec E.top o k.root) (topCall E file r C E.top o k.root) := by
      rcases he with h | ⟨h, hfs⟩
      · exact callLk_top hr _ h o _
      · rw [h]; exact muxLookup_top hr hfs o _
    refine .bindE h1 (fun v => ?_)
    cases v with
    | none => exact .pure rfl
    | some v => exact forData_simTop (.bindE (interpolate_sim hr.toRecSimG true (fun _ => trivial) v) (fun a => dig_sim k a))
end

theorem RecSimTop.eval {E : Env} (he : PlainTop E) (file : Res Entries) (n : Nat) :
    RecSimTop E file (eval E n) (topRef E file n) := by
  induction n with
  | zero => exact ⟨⟨fun _ _ _ _ _ _ => rfl, fun _ _ _ _ _ _ => rfl⟩, fun _ _ _ _ _ _ _ => rfl⟩
  | succ n ih => exact ⟨⟨fun _ k o _ => lookup_top ih he k o, fun _ a v hS => (interp_sim ih.toRecSimG a hS v).mono (fun _ _ h => h.1)⟩,
      fun _ f o k hf => callLk_top ih f hf o k⟩

/-! ### What is known of the file, whatever the outcome -/

/-- From one state to a later one: the explainer and the variables are kept; if the cache has the file, it keeps it; else it has
what the file has now, or nothing. -/
structure KeptTop (E : Env) (s t : St) : Prop where
  on : t.on = none
  scope : t.v.ic.scope = s.v.ic.scope
  file : assoc "yaml::data".toList t.v.cache = assoc "yaml::data".toList s.v.cache ∨
    (assoc "yaml::data".toList s.v.cache = none ∧ ∃ es, theFile E = .ok es ∧ assoc "yaml::data".toList t.v.cache = some (.map es))

theorem KeptTop.refl (E : Env) {s : St} (h : s.on = none) : KeptTop E s s := ⟨h, rfl, .inl rfl⟩

theorem KeptTop.trans {E : Env} {s t u : St} (h : KeptTop E s t) (h' : KeptTop E t u) : KeptTop E s u := by
  refine ⟨h'.on, h'.scope.trans h.scope, ?_⟩
  rcases h.file with h1 | ⟨h1, es, h2, h3⟩
  · rw [← h1]; exact h'.file
  · rcases h'.file with h4 | ⟨h4, _⟩
    · exact .inr ⟨h1, es, h2, h4.trans h3⟩
    · rw [h3] at h4; cases h4

def KeepsTop (E : Env) : Rel := fun _ m _ => ∀ s r t, s.on = none → m s = some (r, t) → KeptTop E s t

theorem KeepsTop.core (E : Env) : CoreV (KeepsTop E) where
  pure := by
    intro α a s r t ho h
    cases h; exact .refl E ho
  bind := by
    intro α β m m' f f' hm hf s r t ho h
    rw [bind_def] at h
    cases hms : m s with
    | none => rw [hms] at h; cases h
    | some x =>
      obtain ⟨a | e, u⟩ := x
      · rw [hms] at h
        have h1 := hm s _ _ ho hms
        exact h1.trans (hf a u r t h1.on h)
      · rw [hms] at h
        cases h
        exact hm s _ _ ho hms
  panic := by
    intro α e s r t ho h
    cases h; exact .refl E ho
  view := by
    intro s r t ho h
    cases h; exact .refl E ho
  withNode := by
    intro α m m' n hm s r t ho h
    unfold Hiera.withNode at h
    rw [if_pos (by rw [ho]; rfl)] at h
    exact hm s r t ho h
  report := by
    intro f _ s r t ho h
    unfold Hiera.report at h
    rw [if_pos (by rw [ho]; rfl)] at h
    cases h; exact .refl E ho

section
variable {E : Env}

theorem KeepsTop.update {f : View → View} (hf : ∀ v, (f v).ic.scope = v.ic.scope ∧ (f v).cache = v.cache) :
    KeepsTop E Unit (update f) (update f) := by
  intro s r t ho h
  cases h
  exact ⟨ho, (hf s.v).1, .inl (by rw [(hf s.v).2])⟩

theorem KeepsTop.withCopy {α : Type} {m m' : M α} (f : Ic → Ic) (g : Option ExplOpts → Option ExplOpts) (hg : g none = none)
    (hm : KeepsTop E α m m') : KeepsTop E α (withCopy f g m) (withCopy f g m') := by
  intro s r t ho h
  unfold Hiera.withCopy at h
  cases hms : m { s with v := { s.v with ic := f s.v.ic }, on := g s.on } with
  | none => rw [hms] at h; cases h
  | some x =>
    rw [hms] at h
    cases h
    exact ⟨ho, rfl, (hm _ _ _ (by show g s.on = none; rw [ho, hg]) hms).file⟩

theorem KeepsTop.forData {α : Type} {m m' : M α} (hm : KeepsTop E α m m') : KeepsTop E α (Hiera.forData m) (Hiera.forData m') := by
  have c := KeepsTop.core E
  unfold Hiera.forData
  refine c.bind c.view (fun v => ?_)
  by_cases hd : v.ic.mode = .data
  · simp only [hd, ↓reduceIte]; exact hm
  · simp only [hd, ↓reduceIte]; exact KeepsTop.withCopy _ _ rfl hm

theorem KeepsTop.forLookupOptions {α : Type} {m m' : M α} (hm : KeepsTop E α m m') :
    KeepsTop E α (Hiera.forLookupOptions m) (Hiera.forLookupOptions m') := by
  have c := KeepsTop.core E
  unfold Hiera.forLookupOptions
  refine c.bind c.view (fun v => ?_)
  by_cases hd : v.ic.mode = .lookupOptions
  · simp only [hd, ↓reduceIte]; exact hm
  · simp only [hd, ↓reduceIte]; exact KeepsTop.withCopy _ _ rfl hm

theorem KeepsTop.doRedacted {α : Type} {m m' : M α} (hm : KeepsTop E α m m') : KeepsTop E α (Hiera.doRedacted m) (Hiera.doRedacted m') := by
  intro s r t ho h
  unfold Hiera.doRedacted at h
  split at h
  · exact hm s r t ho h
  · cases hms : m { s with v := { s.v with ic := { s.v.ic with redacted := true } } } with
    | none => rw [hms] at h; cases h
    | some x =>
      rw [hms] at h
      have h1 := hm _ _ _ (by exact ho) hms
      obtain ⟨x1, x2⟩ := x
      cases h
      exact ⟨h1.on, h1.scope, h1.file⟩

theorem KeepsTop.yamlLookup (key : Str) : KeepsTop E _ (yamlLookup E key) (yamlLookup E key) := by
  intro s r t ho h
  unfold Hiera.yamlLookup at h
  rw [bind_ok (show view s = some (.ok s.v, s) from rfl)] at h
  cases hn : assoc "yaml::data".toList s.v.cache with
  | some x =>
    rw [hn] at h
    cases x <;> (cases h; exact .refl E ho)
  | none =>
    rw [hn] at h
    dsimp only at h
    rw [fileData_theFile] at h
    cases hf : theFile E with
    | panic e => rw [hf] at h; cases h; exact .refl E ho
    | ok es =>
      rw [hf] at h
      cases h
      exact ⟨ho, rfl, .inr ⟨hn, es, hf, by simp [assoc]⟩⟩

variable {rec : Rec} (hr : RecRelOn (KeepsTop E) (KeepsTop E) Unconfigured rec rec)
include hr

theorem KeepsTop.runProg {p : Prog} (hp : TameProg p) : KeepsTop E _ (runProg E rec p) (runProg E rec p) := by
  have c := KeepsTop.core E
  induction hp with
  | ret v => exact c.pure _
  | panic e => exact c.panic e
  | interpolate v k _ ih => exact c.bind (c.toCore.interpolate hr.interp (fun _ => hr.lookup) E v) ih
  | lookup key opts k _ ih => exact c.bind (c.lift _) (fun kk => c.bind (hr.lookup kk opts) ih)
  | explain t k _ ih => exact c.bind (c.report _ (by grows)) (fun _ => ih)
  | scopeGet key k _ ih => exact c.bind c.view (fun v => ih _)

theorem KeepsTop.callLk (f : LkFn) (hf : Unconfigured f) (o : Entries) (k : Str) : KeepsTop E _ (callLk E rec f o k) (callLk E rec f o k) := by
  have c := KeepsTop.core E
  cases f with
  | env => exact c.pure _
  | scope => exact c.bind c.view (fun v => c.pure _)
  | yaml => exact KeepsTop.yamlLookup k
  | custom f => exact KeepsTop.runProg hr (hf o k)
  | notFunction => exact c.pure _
  | config => exact hf.elim
  | mux => exact hf.elim
  | module => exact hf.elim

theorem KeepsTop.mux (hfs : ∀ fs, E.muxFns = some fs → ∀ f ∈ fs, Unconfigured f) (opts : Entries) (key : Str) :
    KeepsTop E _ (muxLookup E rec opts key) (muxLookup E rec opts key) := by
  have c := KeepsTop.core E
  unfold muxLookup
  cases he : E.muxFns with
  | none => exact c.pure _
  | some fs =>
    have merge : ∀ st, KeepsTop E _ (mergeM st fs (fun f => rec.lk f opts key)) (mergeM st fs (fun f => rec.lk f opts key)) := fun st =>
      c.toCore.mergeM st fs _ _ (fun f hf => hr.lkOn f opts key (hfs fs he f hf))
    refine c.bind (KeepsTop.forLookupOptions (merge _)) (fun lo => KeepsTop.forData (c.bind (c.lift _) (fun k => c.withNode _ ?_)))
    refine c.bind ?_ (fun _ => ?_)
    · intro s r t ho h
      rw [setMergeStrategy_quiet opts (asMap lo) s ho] at h
      split at h
      · cases h; exact ⟨ho, rfl, .inl rfl⟩
      · cases h; exact ⟨ho, rfl, .inl rfl⟩
    · unfold lookupAndConvert
      refine c.bind c.view (fun v => c.bind (c.lift _) (fun cv => c.bind ?_ (fun w => c.lift _)))
      have inner : KeepsTop E _ (currentStrategy >>= fun st => mergeM st fs (fun f => rec.lk f opts key))
          (currentStrategy >>= fun st => mergeM st fs (fun f => rec.lk f opts key)) := by
        refine c.bind ?_ merge
        unfold currentStrategy
        refine c.bind c.view (fun v => ?_)
        split
        · exact c.pure _
        · exact c.panic _
      unfold maybeRedacted
      rcases cv with _ | ⟨t, as⟩
      · exact inner
      · dsimp only
        by_cases hs : E.isSensitive t = true
        · rw [if_pos hs]; exact KeepsTop.doRedacted inner
        · rw [if_neg hs]; exact inner

theorem KeepsTop.lookup (he : PlainTop E) (k : Key) (o : Entries) : KeepsTop E _ (lookup E rec k o) (lookup E rec k o) := by
  have c := KeepsTop.core E
  unfold Hiera.lookup
  split
  · exact c.withNode _ (c.bind (c.report _ (by grows)) (fun _ => c.pure _))
  · have h1 : KeepsTop E _ (Hiera.callLk E rec E.top o k.root) (Hiera.callLk E rec E.top o k.root) := by
      rcases he with h | ⟨h, hfs⟩
      · exact KeepsTop.callLk hr _ h o _
      · rw [h]; exact KeepsTop.mux hr hfs o _
    refine c.bind h1 (fun v => ?_)
    cases v with
    | none => exact c.pure _
    | some v => exact KeepsTop.forData (c.bind (c.toCore.interpolate hr.interp (fun _ => hr.lookup) E v) (fun a => c.toCore.dig k a))
end

theorem KeepsTop.eval {E : Env} (he : PlainTop E) (n : Nat) : RecRelOn (KeepsTop E) (KeepsTop E) Unconfigured (eval E n) (eval E n) := by
  induction n with
  | zero =>
    refine ⟨?_, ?_, ?_, ?_⟩
    · intro _ _ _ _ _ _ h; cases h
    · intro _ _ _ _ _ h; cases h
    · intro _ _ _ _ _ h; cases h
    · intro _ _ _ _ _ _ _ _ h; cases h
  | succ n ih =>
    have c := (KeepsTop.core E).toCore
    exact ⟨fun k o => KeepsTop.lookup ih he k o, fun v => c.interp ih.interp (fun _ => ih.lookup) E v,
      fun v => c.interp ih.interpC (fun h => nomatch h) E v, fun f o k hf => KeepsTop.callLk ih f hf o k⟩

/-! ### What interpolation depends on -/

section
variable {E E' : Env} (he : E'.textOf = E.textOf) (r : Ref) (C : Ctx)
include he

theorem refText_env (a : Bool) : ∀ ts, refText E' r C a ts = refText E r C a ts
  | [] => rfl
  | .chr c :: ts => by rw [refText, refText, refText_env a ts]
  | .expr e :: ts => by rw [refText, refText, refText_env a ts]; unfold refPiece; simp only [he]

theorem refStr_env (a : Bool) (s : Str) : refStr E' r C a s = refStr E r C a s := by
  unfold refStr
  rw [refText_env he]

end

section
variable {E E' : Env} {r r' : Ref} {C : Ctx} {a : Bool} (h : ∀ s, refStr E r C a s = refStr E' r' C a s)
include h

mutual
/-- What a value becomes depends on what its strings become. -/
theorem refInterp_of : ∀ v, refInterp E r C a v = refInterp E' r' C a v
  | .str s => by rw [refInterp, refInterp]; exact h s
  | .arr vs => by rw [refInterp, refInterp, refList_of vs]
  | .map es => by rw [refInterp, refInterp, refEntries_of [] es]
  | .null => by rw [refInterp, refInterp] <;> first | rfl | simp
  | .bool _ => by rw [refInterp, refInterp] <;> first | rfl | simp
  | .int _ => by rw [refInterp, refInterp] <;> first | rfl | simp
  | .sensitive _ => by rw [refInterp, refInterp] <;> first | rfl | simp
  | .opaque _ => by rw [refInterp, refInterp] <;> first | rfl | simp
theorem refList_of : ∀ vs, refList E r C a vs = refList E' r' C a vs
  | [] => by rw [refList, refList]
  | v :: vs => by rw [refList, refList, refInterp_of v, refList_of vs]
theorem refEntries_of : ∀ cp es, refEntries E r C a cp es = refEntries E' r' C a cp es
  | cp, [] => by rw [refEntries, refEntries]
  | cp, (k, v) :: es => by
    rw [refEntries, refEntries, refInterp_of k, refInterp_of v]
    congr 1; funext x; congr 1; funext y
    exact refEntries_of _ es
end
end

/-- Interpolation does not call functions. -/
theorem refInterp_rec (E : Env) {r r' : Ref} (h1 : r.lookup = r'.lookup) (h2 : r.interp = r'.interp) (C : Ctx) (a : Bool) (v : Value) :
    refInterp E r C a v = refInterp E r' C a v := by
  obtain ⟨l, i, c⟩ := r
  obtain ⟨l', i', c'⟩ := r'
  cases h1
  cases h2
  have hp : ∀ x, refPiece E ⟨l, i, c⟩ C a x = refPiece E ⟨l, i, c'⟩ C a x := fun _ => rfl
  have ht : ∀ ts, refText E ⟨l, i, c⟩ C a ts = refText E ⟨l, i, c'⟩ C a ts := by
    intro ts
    induction ts with
    | nil => rfl
    | cons t ts ih => cases t <;> rw [refText, refText, ih] <;> rfl
  have hs : ∀ s, refStr E ⟨l, i, c⟩ C a s = refStr E ⟨l, i, c'⟩ C a s := by
    intro s
    unfold refStr
    rw [ht]
    rfl
  exact refInterp_of hs v

/-- If the top provider is the file, files matter only for what it has. -/
theorem topRef_files {E : Env} (ht : E.top = .yaml) (f : Files) (file : Res Entries) (C : Ctx) (k : Key) (o : Entries) : ∀ n,
    (topRef (readingFiles E f) file n).lookup C k o = (topRef E file n).lookup C k o := by
  have key : ∀ n, (topRef (readingFiles E f) file n).lookup = (topRef E file n).lookup ∧
      (topRef (readingFiles E f) file n).interp = (topRef E file n).interp := by
    intro n
    induction n with
    | zero => exact ⟨rfl, rfl⟩
    | succ n ih =>
      have h1 : ∀ C a v, refInterp (readingFiles E f) (topRef (readingFiles E f) file n) C a v = refInterp E (topRef E file n) C a v := by
        intro C a v
        rw [refInterp_of (E' := E) (refStr_env (E := E) (show (readingFiles E f).textOf = E.textOf from rfl) _ C a)]
        exact refInterp_rec E ih.1 ih.2 C a v
      refine ⟨?_, by funext C a v; exact h1 C a v⟩
      funext C k o
      show topLookup _ _ _ C k o = topLookup _ _ _ C k o
      unfold topLookup
      rw [show (readingFiles E f).top = .yaml from ht, ht]
      simp only [topCall, h1]
  exact fun n => by rw [(key n).1]

end Hiera
