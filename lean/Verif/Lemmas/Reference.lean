/- The evaluator has the outcomes of the reference (`Spec/Reference.lean`). -/
import Verif.Spec.Reference
import Verif.Lemmas.Steady
import Verif.Lemmas.Coherent
import Verif.Lemmas.InterpEval

set_option linter.unusedSimpArgs false

set_option linter.unusedSectionVars false

set_option autoImplicit false

namespace Hiera
open Spec

theorem Ans.pure_bind {α β : Type} (a : α) (f : α → Ans β) : (pure a >>= f : Ans β) = f a := rfl

theorem Ans.of_ok_bind {α β : Type} (a : α) (f : α → Ans β) : (Ans.of (.ok a) >>= f : Ans β) = f a := rfl

/-! ### States and computations -/

/-- The resolved configuration in the state is that of the reference. -/
structure AtSite (E : Env) (x : Site) (s : St) : Prop where
  cfg : ∃ rc, assoc E.configPath s.v.configs = some rc ∧ rc.providers.map Prov.entry = x.entries ∧
    rc.lookupOptions = x.options ∧ rc.moduleName = []

/-- The configuration is not resolved yet, and parsed ones are as they should be. -/
structure Unresolved (E : Env) (s : St) : Prop where
  cfg : assoc E.configPath s.v.configs = none
  parsed : ∀ p c, assoc p s.v.parsed = some c → newCfg E.cfg p (E.readYaml p) = .ok c
  locked : s.v.locked = []

def WithinIs (w : Within) (ic : Ic) : Prop :=
  match w with
  | .call => ic.mode = .top ∧ ic.strategy = none
  | .options => ic.mode = .lookupOptions
  | .value st => ic.mode = .data ∧ ic.strategy = st

structure Inv (E : Env) (site : Option Site) (C : Ctx) (s : St) : Prop where
  on : s.on = none
  scope : s.v.ic.scope = C.scope
  coh : Coh E s.v.hashes
  at_ : ∀ x, site = some x → AtSite E x s
  within : site.isSome = true → E.top = .config → C.within ≠ .options ∧ WithinIs C.within s.v.ic
  un : site = none → Unresolved E s

/-- Conditions on states under which there is no explainer and the variables are those of the reference. -/
class AsMeant (I : Ctx → St → Prop) : Prop where
  on : ∀ {C s}, I C s → s.on = none
  scope : ∀ {C s}, I C s → s.v.ic.scope = C.scope

instance (E : Env) (site : Option Site) : AsMeant (Inv E site) := ⟨fun h => h.on, fun h => h.scope⟩

/-- An outcome is that of the reference, and leaves a state as meant. -/
abbrev FollowsG (I : Ctx → St → Prop) (C : Ctx) {α β : Type} (Q : α → β → Prop) (o : Option (Res α × St)) (x : Ans β) : Prop :=
  match x with
  | none => o = none
  | some (.ok b) => ∃ a t, o = some (.ok a, t) ∧ Q a b ∧ I C t
  | some (.panic e) => ∃ t, o = some (.panic e, t)

/-- From a state as meant, the computation has the outcome of the reference. -/
def SimG (I : Ctx → St → Prop) (C : Ctx) {α β : Type} (Q : α → β → Prop) (m : M α) (x : Ans β) : Prop :=
  ∀ s, I C s → FollowsG I C Q (m s) x

abbrev SimH (I : Ctx → St → Prop) (C : Ctx) {α : Type} (m : M α) (x : Ans α) : Prop := SimG I C Eq m x

abbrev Follows (E : Env) (site : Option Site) (C : Ctx) {α β : Type} (Q : α → β → Prop) (o : Option (Res α × St)) (x : Ans β) : Prop :=
  FollowsG (Inv E site) C Q o x

abbrev SimQ (E : Env) (site : Option Site) (C : Ctx) {α β : Type} (Q : α → β → Prop) (m : M α) (x : Ans β) : Prop :=
  SimG (Inv E site) C Q m x

abbrev SimE (E : Env) (site : Option Site) (C : Ctx) {α : Type} (m : M α) (x : Ans α) : Prop := SimQ E site C Eq m x

section
variable {I : Ctx → St → Prop} {C : Ctx}

theorem SimG.pure {α β : Type} {Q : α → β → Prop} {a : α} {b : β} (h : Q a b) : SimG I C Q (pure a) (pure b) :=
  fun s hs => ⟨a, s, rfl, h, hs⟩

theorem SimG.fail {α β : Type} {Q : α → β → Prop} (e : Err) : SimG I C Q (panic e : M α) (Ans.fail e : Ans β) :=
  fun s _ => ⟨s, rfl⟩

theorem SimG.of {α : Type} (r : Res α) : SimH I C (lift r) (Ans.of r) := by
  intro s hs
  cases r with
  | ok a => exact ⟨a, s, rfl, rfl, hs⟩
  | panic e => exact ⟨s, rfl⟩

theorem SimG.bind {α β γ δ : Type} {Q : α → β → Prop} {P : γ → δ → Prop} {m : M α} {x : Ans β} {f : α → M γ} {y : β → Ans δ}
    (h : SimG I C Q m x) (hf : ∀ a b, Q a b → SimG I C P (f a) (y b)) : SimG I C P (m >>= f) (x >>= y) := by
  intro s hs
  have h1 := h s hs
  match x with
  | none => show (m >>= f) s = none; rw [bind_none h1]
  | some (.ok b) =>
    obtain ⟨a, t, h1, hq, ht⟩ := h1
    rw [bind_ok h1]
    exact hf a b hq t ht
  | some (.panic e) =>
    obtain ⟨t, h1⟩ := h1
    exact ⟨t, bind_panic h1⟩

theorem SimG.bindE {α γ δ : Type} {P : γ → δ → Prop} {m : M α} {x : Ans α} {f : α → M γ} {y : α → Ans δ}
    (h : SimH I C m x) (hf : ∀ a, SimG I C P (f a) (y a)) : SimG I C P (m >>= f) (x >>= y) :=
  .bind h (fun a b e => by subst e; exact hf a)

theorem SimG.mono {α β : Type} {Q P : α → β → Prop} {m : M α} {x : Ans β} (h : SimG I C Q m x) (hq : ∀ a b, Q a b → P a b) :
    SimG I C P m x := by
  intro s hs
  have h1 := h s hs
  match x with
  | none => exact h1
  | some (.ok b) =>
    obtain ⟨a, t, h1, h2, ht⟩ := h1
    exact ⟨a, t, h1, hq a b h2, ht⟩
  | some (.panic e) => exact h1

theorem SimG.mapR {α β γ : Type} {Q : α → β → Prop} {P : α → γ → Prop} {m : M α} {x : Ans β} {g : β → γ} (h : SimG I C Q m x)
    (hq : ∀ a b, Q a b → P a (g b)) : SimG I C P m (x >>= fun b => Pure.pure (g b)) := by
  intro s hs
  have h1 := h s hs
  match x with
  | none => exact h1
  | some (.ok b) =>
    obtain ⟨a, t, h1, h2, ht⟩ := h1
    exact ⟨a, t, h1, hq a b h2, ht⟩
  | some (.panic e) => exact h1

theorem SimG.mapL {α β γ : Type} {Q : α → β → Prop} {P : γ → β → Prop} {m : M α} {x : Ans β} {g : α → γ} (h : SimG I C Q m x)
    (hq : ∀ a b, Q a b → P (g a) b) : SimG I C P (m >>= fun a => Pure.pure (g a)) x := by
  intro s hs
  have h1 := h s hs
  match x with
  | none => exact bind_none h1
  | some (.ok b) =>
    obtain ⟨a, t, h1, h2, ht⟩ := h1
    exact ⟨g a, t, by rw [bind_ok h1]; rfl, hq a b h2, ht⟩
  | some (.panic e) =>
    obtain ⟨t, h1⟩ := h1
    exact ⟨t, bind_panic h1⟩

theorem SimG.retR {α β : Type} {Q : α → β → Prop} {m : M α} {x : Ans β} (h : SimG I C Q m (x >>= fun b => Pure.pure b)) :
    SimG I C Q m x := by
  have e : (x >>= fun b => (Pure.pure b : Ans β)) = x := by
    match x with
    | none => rfl
    | some (.ok _) => rfl
    | some (.panic _) => rfl
  rw [e] at h
  exact h

theorem SimG.bindOf {α γ δ : Type} {P : γ → δ → Prop} {m : M α} {x : Res α} {f : α → M γ} {y : α → Ans δ}
    (h : SimH I C m (Ans.of x)) (hf : ∀ a, x = .ok a → SimG I C P (f a) (y a)) : SimG I C P (m >>= f) (Ans.of x >>= y) := by
  cases x with
  | panic e =>
    intro s hs
    obtain ⟨t, ht⟩ := h s hs
    exact ⟨t, bind_panic ht⟩
  | ok a =>
    intro s hs
    obtain ⟨b, t, ht, hb, hi⟩ := h s hs
    subst hb
    rw [bind_ok ht]
    exact hf _ rfl t hi

/-- Reading the state. -/
theorem SimG.view [AsMeant I] {α β : Type} {Q : α → β → Prop} {f : View → M α} {x : Ans β}
    (h : ∀ v, v.ic.scope = C.scope → SimG I C Q (f v) x) : SimG I C Q (Hiera.view >>= f) x := by
  intro s hs
  rw [bind_ok (show Hiera.view s = some (.ok s.v, s) from rfl)]
  exact h s.v (AsMeant.scope hs) s hs

theorem SimG.node [AsMeant I] {α β : Type} {Q : α → β → Prop} {m : M α} {x : Ans β} (n : Node) (h : SimG I C Q m x) :
    SimG I C Q (withNode n m) x := by
  intro s hs
  rw [Quiet.off_withNode (AsMeant.on hs)]
  exact h s hs

theorem SimG.report [AsMeant I] {α β : Type} {Q : α → β → Prop} {m : M α} {x : Ans β} (f : Node → Node) (h : SimG I C Q m x) :
    SimG I C Q (report f >>= fun _ => m) x := by
  intro s hs
  rw [bind_ok (Quiet.off_report (AsMeant.on hs))]
  exact h s hs

end

section
variable {E : Env} {site : Option Site} {C : Ctx}

/-- A change of the state that leaves it as meant. -/
theorem SimG.update {α β : Type} {Q : α → β → Prop} {m : M α} {x : Ans β} {f : View → View}
    (hf : ∀ v, (f v).ic = v.ic ∧ (f v).hashes = v.hashes ∧ (f v).configs = v.configs ∧ (f v).parsed = v.parsed ∧
      (f v).locked = v.locked) (h : SimQ E site C Q m x) :
    SimQ E site C Q (update f >>= fun _ => m) x := by
  intro s hs
  rw [bind_ok (show Hiera.update f s = some (.ok (), { s with v := f s.v }) from rfl)]
  obtain ⟨h1, h2, h3, h4, h5⟩ := hf s.v
  refine h _ ⟨hs.on, ?_, ?_, ?_, ?_, ?_⟩
  · show (f s.v).ic.scope = _; rw [h1]; exact hs.scope
  · show Coh E (f s.v).hashes; rw [h2]; exact hs.coh
  · intro x hx
    have := (hs.at_ x hx).cfg
    exact ⟨by show ∃ rc, assoc E.configPath (f s.v).configs = some rc ∧ _; rw [h3]; exact this⟩
  · intro hw ht
    show _ ∧ WithinIs _ (f s.v).ic
    rw [h1]; exact hs.within hw ht
  · intro hn
    have := hs.un hn
    exact ⟨by show assoc _ (f s.v).configs = none; rw [h3]; exact this.cfg,
      by show ∀ p c, assoc p (f s.v).parsed = some c → _; rw [h4]; exact this.parsed,
      by show (f s.v).locked = []; rw [h5]; exact this.locked⟩

end

/-- With several functions, what a lookup is for does not matter. -/
theorem Inv.any {E : Env} {site : Option Site} {C : Ctx} {s : St} (ht : E.top ≠ .config) (hs : Inv E site C s) (C' : Ctx)
    (hC : C'.scope = C.scope) : Inv E site C' s :=
  ⟨hs.on, by rw [hC]; exact hs.scope, hs.coh, hs.at_, fun _ h => absurd h ht, hs.un⟩

theorem Inv.withMode {E : Env} {site : Option Site} {C : Ctx} {s : St} (ht : E.top ≠ .config) (hs : Inv E site C s) (ic : Ic)
    (hi : ic.scope = s.v.ic.scope) (on : Option ExplOpts) (ho : on = none) : Inv E site C { s with v := { s.v with ic := ic }, on := on } :=
  ⟨ho, by show ic.scope = _; rw [hi]; exact hs.scope, hs.coh, fun x hx => ⟨(hs.at_ x hx).cfg⟩, fun _ h => absurd h ht,
    fun hn => ⟨(hs.un hn).1, (hs.un hn).2, (hs.un hn).3⟩⟩

/-- Functions that may be called from anywhere. -/
def Suits (E : Env) (f : LkFn) : Prop := Stateless f ∧ (f = .config → E.top = .config)

/-- The recursive calls have the outcomes of the reference, where lookups are made with variables that meet `S`. -/
structure RecSimG (I : Ctx → St → Prop) (S : Scope → Prop) (rec : Rec) (r : Ref) : Prop where
  lookup : ∀ C k o, S C.scope → SimH I C (rec.lookup k o) (r.lookup C k o)
  interp : ∀ C allow v, (allow = true → S C.scope) → SimG I C (fun a b => a.1 = b) (rec.interp v allow) (r.interp C allow v)

/-- The same for lookup functions, if there is a configuration. -/
structure RecSim (E : Env) (site : Option Site) (S : Scope → Prop) (rec : Rec) (r : Ref) : Prop extends RecSimG (Inv E site) S rec r where
  call : ∀ C f o k, S C.scope → Suits E f → SimE E site C (rec.lk f o k) (r.call C f o k)
  config : ∀ C o k, S C.scope → C.within ≠ .call → ∀ s, Inv E site C s → (site.isSome = true → WithinIs C.within s.v.ic) →
    Follows E site C Eq (rec.lk .config o k s) (r.call C .config o k)

section
variable {E : Env} {I : Ctx → St → Prop} [AsMeant I] {S : Scope → Prop} {rec : Rec} {r : Ref} (hr : RecSimG I S rec r) {C : Ctx}
include hr

/-! ### Interpolation -/

omit hr in
theorem dig_sim (k : Key) (v : Option Value) : SimH I C (dig k v) (pure (v.bind k.digPure)) := by
  intro s hs
  cases v with
  | none => exact ⟨none, s, dig_none k s (AsMeant.on hs), rfl, hs⟩
  | some v => exact ⟨k.digPure v, s, dig_quiet k v s (AsMeant.on hs), rfl, hs⟩

theorem interpInScope_sim (x : Str) (allow : Bool) (hS : allow = true → S C.scope) : SimH I C (interpInScope rec x allow) (refVar r C allow x) := by
  unfold interpInScope refVar
  refine .bindE (.of _) (fun k => .view (fun v hv => ?_))
  rw [hv]
  cases C.scope.get k.root with
  | none => exact .pure rfl
  | some y =>
    refine .bind (hr.interp C allow y hS) (fun a b e => ?_)
    subst e
    exact dig_sim k a.1

theorem look_sim (hS : S C.scope) (x : Str) : SimH I C (lift (newKey x) >>= fun k => rec.lookup k []) (refLook r C x) :=
  .bindE (.of _) (fun k => hr.lookup C k [] hS)

omit hr in
theorem alone_of_eq {s e : Str} (hm : Tok.expr e ∈ tokens s) (h : '%' :: '{' :: e ++ ['}'] = s) : tokens s = [.expr e] := by
  have hc : '}' ∉ e := by
    have : ∀ {s : Str} {ts : List Tok}, Splits s ts → Tok.expr e ∈ ts → '}' ∉ e := by
      intro s ts hs
      induction hs with
      | nil => intro h; cases h
      | expr he hr ih =>
        intro h
        rcases List.mem_cons.1 h with h | h
        · cases h; exact he
        · exact ih h
      | chr hc hr ih =>
        intro h
        rcases List.mem_cons.1 h with h | h
        · cases h
        · exact ih h
    exact this (tokens_splits s) hm
  subst h
  exact tokens_eq (.expr hc .nil)

omit hr in
theorem eq_of_alone {s e : Str} (h : tokens s = [.expr e]) : '%' :: '{' :: e ++ ['}'] = s := by
  have hs := tokens_splits s
  rw [h] at hs
  cases hs with
  | expr he hr => cases hr; rfl

omit hr in
theorem allow_of_lookup {x d : Str} {allow : Bool} {m : Method} (h : getMethodAndData x allow = .ok (m, d)) (hm : m ≠ .scope) :
    allow = true := by
  cases allow with
  | true => rfl
  | false =>
    rcases getMethod_false x with h' | h' <;> rw [h'] at h <;> cases h
    exact absurd rfl hm

/-- An expression among others. -/
theorem interpExpr_sim (str : Str) (allow : Bool) (hS : allow = true → S C.scope) (e : Str)
    (ha : ∀ m x, emptyInterpolation (trimSpace e) = false → getMethodAndData (trimSpace e) allow = .ok (m, x) → m.isAlias = true →
      '%' :: '{' :: e ++ ['}'] ≠ str)
    (st : IplState) (h1 : st.result = none) (h2 : st.method ≠ .strictAlias) :
    SimG I C (fun st' t => st'.out = st.out ++ t ∧ st'.result = none ∧ st'.method ≠ .strictAlias)
      (interpExpr E rec str allow e st) (refPiece E r C allow e) := by
  unfold interpExpr refPiece
  dsimp only
  by_cases he : emptyInterpolation (trimSpace e) = true
  · rw [if_pos he, if_pos he]
    exact .pure ⟨by simp, h1, h2⟩
  · rw [if_neg he, if_neg he]
    cases hg : getMethodAndData (trimSpace e) allow with
    | panic er => exact fun s _ => ⟨s, rfl⟩
    | ok md =>
      obtain ⟨m, x⟩ := md
      rw [M.lift_ok_bind]
      show SimG I C _ _ (match m with
        | .literal => (pure x : Ans Str)
        | .scope => refVar r C allow x >>= fun v => pure (E.textOf v)
        | .lookup => refLook r C x >>= fun v => pure (E.textOf v)
        | .alias => Ans.fail .aliasNotAlone
        | .strictAlias => Ans.fail .aliasNotAlone)
      have hne := ha m x (by simpa using he) hg
      cases m with
      | literal =>
        rw [if_neg (by simp [Method.isAlias])]
        exact .pure ⟨rfl, h1, by simp⟩
      | scope =>
        rw [if_neg (by simp [Method.isAlias])]
        exact .bindE (interpInScope_sim hr x allow hS) (fun v => .pure ⟨rfl, h1, by simp⟩)
      | lookup =>
        rw [if_neg (by simp [Method.isAlias])]
        dsimp only
        unfold refLook
        rw [show (lift (newKey x) >>= fun k => rec.lookup k [] >>= fun v =>
            if Method.lookup.isAlias = true then (pure { st with result := v, method := Method.lookup } : M IplState)
            else pure { st with out := st.out ++ E.textOf v, method := Method.lookup }) =
          ((lift (newKey x) >>= fun k => rec.lookup k []) >>= fun v =>
            pure { st with out := st.out ++ E.textOf v, method := Method.lookup }) from (M.bind_assoc _ _ _).symm]
        exact .bindE (look_sim hr (hS (allow_of_lookup hg (by simp))) x) (fun v => .pure ⟨rfl, h1, by simp⟩)
      | «alias» =>
        rw [if_pos ⟨rfl, hne rfl⟩]
        exact .fail _
      | strictAlias =>
        rw [if_pos ⟨rfl, hne rfl⟩]
        exact .fail _

theorem interpToks_sim (str : Str) (allow : Bool) (hS : allow = true → S C.scope) : ∀ (ts : List Tok)
    (_ : ∀ e, Tok.expr e ∈ ts → ∀ m x, emptyInterpolation (trimSpace e) = false →
      getMethodAndData (trimSpace e) allow = .ok (m, x) → m.isAlias = true → '%' :: '{' :: e ++ ['}'] ≠ str)
    (st : IplState) (_ : st.result = none) (_ : st.method ≠ .strictAlias),
    SimG I C (fun st' t => st'.out = st.out ++ t ∧ st'.result = none ∧ st'.method ≠ .strictAlias)
      (interpToks E rec str allow ts st) (refText E r C allow ts)
  | [], _, st, h1, h2 => .pure ⟨by simp, h1, h2⟩
  | .chr c :: ts, ha, st, h1, h2 => by
    unfold refText
    rw [interpToks]
    exact .mapR (interpToks_sim str allow hS ts (fun e he => ha e (by simp [he])) { st with out := st.out ++ [c] } h1 h2)
      (fun a b h => ⟨by rw [h.1]; simp, h.2⟩)
  | .expr e :: ts, ha, st, h1, h2 => by
    unfold refText
    rw [interpToks]
    refine .bind (interpExpr_sim hr str allow hS e (ha e (by simp)) st h1 h2) (fun st' b hb => ?_)
    exact .mapR (interpToks_sim str allow hS ts (fun e he => ha e (by simp [he])) st' hb.2.1 hb.2.2)
      (fun a b h => ⟨by rw [h.1, hb.1]; simp, h.2⟩)

omit hr in
theorem aliasOf_some {allow : Bool} {ts : List Tok} {m : Method} {x : Str} (h : aliasOf allow ts = some (m, x)) :
    ∃ e, ts = [.expr e] ∧ emptyInterpolation (trimSpace e) = false ∧ getMethodAndData (trimSpace e) allow = .ok (m, x) ∧
      m.isAlias = true := by
  unfold aliasOf at h
  split at h
  · rename_i e
    split at h
    · cases h
    · rename_i he
      split at h
      · rename_i hg; cases h; exact ⟨e, rfl, by simpa using he, hg, rfl⟩
      · rename_i hg; cases h; exact ⟨e, rfl, by simpa using he, hg, rfl⟩
      · cases h
  · cases h

omit hr in
theorem aliasOf_none {allow : Bool} {s : Str} (h : aliasOf allow (tokens s) = none) (e : Str) (he : Tok.expr e ∈ tokens s)
    (m : Method) (x : Str) (h0 : emptyInterpolation (trimSpace e) = false) (hg : getMethodAndData (trimSpace e) allow = .ok (m, x))
    (hm : m.isAlias = true) : '%' :: '{' :: e ++ ['}'] ≠ s := by
  intro heq
  rw [alone_of_eq he heq] at h
  unfold aliasOf at h
  dsimp only at h
  rw [if_neg (by simp [h0]), hg] at h
  cases m <;> simp_all [Method.isAlias]

omit hr in
theorem refText_chrs (allow : Bool) (s : Str) : refText E r C allow (s.map .chr) = pure s := by
  induction s with
  | nil => rfl
  | cons c cs ih => rw [List.map_cons, refText, ih]; rfl

omit hr in
theorem aliasOf_chrs (allow : Bool) (s : Str) : aliasOf allow (s.map .chr) = none := by
  cases s <;> rfl

omit hr in
theorem refStr_unmarked (allow : Bool) {s : Str} (h : ¬Marked s) : refStr E r C allow s = pure (some (.str s)) := by
  unfold refStr
  rw [tokens_eq (splits_unmarked h), aliasOf_chrs]
  dsimp only
  rw [refText_chrs]
  rfl

theorem interpStr_sim (s : Str) (allow : Bool) (hS : allow = true → S C.scope) :
    SimG I C (fun a b => a.1 = b ∧ a.2 = hasMarker s) (interpStr E rec s allow) (refStr E r C allow s) := by
  by_cases hm : hasMarker s = true
  · unfold interpStr refStr
    rw [if_pos hm]
    cases ha : aliasOf allow (tokens s) with
    | none =>
      refine .mapL (.node _ (.bind (interpToks_sim hr s allow hS (tokens s) (aliasOf_none ha) {} rfl (by simp)) (fun st t h => .pure ?_)))
        (Q := Eq) (fun a b e => ⟨e, hm.symm⟩)
      obtain ⟨q1, q2, q3⟩ := h
      unfold IplState.finish
      rw [if_pos ⟨by rw [q2]; rfl, q3⟩, q1]
      rfl
    | some mx =>
      obtain ⟨m, x⟩ := mx
      obtain ⟨e, ht, h0, hg, hal⟩ := aliasOf_some ha
      have hs := eq_of_alone ht
      have hS := hS (allow_of_lookup hg (by rintro rfl; cases hal))
      have run : (withNode (.new (.interpolate s)) (do
          let st ← interpToks E rec s allow (tokens s) {}
          pure st.finish) >>= fun a => (pure (a, true) : M (Option Value × Bool))) =
          (withNode (.new (.interpolate s)) ((lift (newKey x) >>= fun k => rec.lookup k []) >>= fun v =>
            (pure (IplState.finish { result := v, method := m }) : M (Option Value))) >>= fun a => pure (a, true)) := by
        congr 1
        congr 1
        rw [ht, interpToks]
        unfold interpExpr
        dsimp only
        rw [if_neg (by simp [h0]), hg, M.lift_ok_bind]
        dsimp only
        rw [if_neg (fun h => h.2 hs)]
        cases m with
        | scope => cases hal
        | lookup => cases hal
        | literal => cases hal
        | «alias» => simp only [interpToks, M.bind_assoc, hal, if_true, M.pure_bind]
        | strictAlias => simp only [interpToks, M.bind_assoc, hal, if_true, M.pure_bind]
      rw [run]
      cases m with
      | scope => cases hal
      | lookup => cases hal
      | literal => cases hal
      | strictAlias =>
        exact .mapL (.node _ (.mapL (look_sim hr hS x) (P := Eq) (fun a b e => by subst e; simp [IplState.finish]))) (fun a b e => ⟨e, hm.symm⟩)
      | «alias» =>
        exact .mapL (.node _ (.bindE (look_sim hr hS x) (P := Eq) (fun v => .pure (by cases v <;> rfl)))) (fun a b e => ⟨e, hm.symm⟩)
  · have hn : ¬Marked s := fun h => hm ((hasMarker_iff s).2 h)
    rw [interpStr_unmarked E rec allow hn, refStr_unmarked allow hn]
    exact .pure ⟨rfl, by simpa using hm⟩

omit hr in
mutual
theorem plain_of_unmarked : ∀ {v : Value}, marked v = false → Plain v
  | .str s, h => .str (fun hm => by rw [marked, (hasMarker_iff s).2 hm] at h; cases h)
  | .arr vs, h => .arr (plainL_of_unmarked (by rw [marked] at h; exact h))
  | .map es, h => .map (plainE_of_unmarked (by rw [marked] at h; exact h))
  | .null, _ => .null
  | .bool _, _ => .bool
  | .int _, _ => .int
  | .sensitive _, _ => .sensitive
  | .opaque _, _ => .opaque
theorem plainL_of_unmarked : ∀ {vs : List Value}, markedL vs = false → PlainL vs
  | [], _ => .nil
  | v :: vs, h => by
    rw [markedL, Bool.or_eq_false_iff] at h
    exact .cons (plain_of_unmarked h.1) (plainL_of_unmarked h.2)
theorem plainE_of_unmarked : ∀ {es : List (Value × Value)}, markedE es = false → PlainE es
  | [], _ => .nil
  | (k, v) :: es, h => by
    rw [markedE, Bool.or_eq_false_iff, Bool.or_eq_false_iff] at h
    exact .cons (plain_of_unmarked h.1.1) (plain_of_unmarked h.1.2) (plainE_of_unmarked h.2)
end

omit hr in
mutual
theorem refInterp_unmarked (allow : Bool) : ∀ {v : Value}, marked v = false → refInterp E r C allow v = pure (some v)
  | .str s, h => by
    rw [refInterp]
    exact refStr_unmarked allow (fun hm => by rw [marked, (hasMarker_iff s).2 hm] at h; cases h)
  | .arr vs, h => by
    rw [marked] at h
    rw [refInterp, refList_unmarked allow h]
    rfl
  | .map es, h => by
    rw [marked] at h
    rw [refInterp, h]
    rfl
  | .null, _ => by rw [refInterp] <;> simp
  | .bool _, _ => by rw [refInterp] <;> simp
  | .int _, _ => by rw [refInterp] <;> simp
  | .sensitive _, _ => by rw [refInterp] <;> simp
  | .opaque _, _ => by rw [refInterp] <;> simp
theorem refList_unmarked (allow : Bool) : ∀ {vs : List Value}, markedL vs = false → refList E r C allow vs = pure vs
  | [], _ => by rw [refList]
  | v :: vs, h => by
    rw [markedL, Bool.or_eq_false_iff] at h
    rw [refList, refInterp_unmarked allow h.1, refList_unmarked allow h.2]
    rfl
end

mutual
theorem interp_sim (allow : Bool) (hS : allow = true → S C.scope) : ∀ v : Value,
    SimG I C (fun a b => a.1 = b ∧ a.2 = marked v) (interp E rec allow v) (refInterp E r C allow v)
  | .str s => by
    rw [interp, refInterp, marked]
    exact interpStr_sim hr s allow hS
  | .arr vs => by
    by_cases hm : markedL vs = true
    · rw [interp, refInterp]
      refine .bind (interpList_sim allow hS vs) (fun a b h => ?_)
      rw [h.2, hm, if_pos rfl, h.1]
      exact .pure ⟨rfl, by rw [marked, hm]⟩
    · have hm' : marked (.arr vs) = false := by rw [marked]; simpa using hm
      rw [interp_plain E rec allow (plain_of_unmarked hm'), refInterp_unmarked allow hm']
      exact .pure ⟨rfl, hm'.symm⟩
  | .map es => by
    by_cases hm : markedE es = true
    · rw [interp, refInterp, if_pos hm]
      refine .bind (interpMap_sim allow hS [] es) (fun a b h => ?_)
      rw [h.2, hm, if_pos rfl, h.1]
      exact .pure ⟨rfl, by rw [marked, hm]⟩
    · have hm' : marked (.map es) = false := by rw [marked]; simpa using hm
      rw [interp_plain E rec allow (plain_of_unmarked hm'), refInterp_unmarked allow hm']
      exact .pure ⟨rfl, hm'.symm⟩
  | .null => by
    rw [interp_plain E rec allow .null, refInterp_unmarked allow rfl]; exact .pure ⟨rfl, rfl⟩
  | .bool b => by
    rw [interp_plain E rec allow .bool, refInterp_unmarked allow rfl]; exact .pure ⟨rfl, rfl⟩
  | .int b => by
    rw [interp_plain E rec allow .int, refInterp_unmarked allow rfl]; exact .pure ⟨rfl, rfl⟩
  | .sensitive b => by
    rw [interp_plain E rec allow .sensitive, refInterp_unmarked allow rfl]; exact .pure ⟨rfl, rfl⟩
  | .opaque b => by
    rw [interp_plain E rec allow .opaque, refInterp_unmarked allow rfl]; exact .pure ⟨rfl, rfl⟩
theorem interpList_sim (allow : Bool) (hS : allow = true → S C.scope) : ∀ vs : List Value,
    SimG I C (fun a b => a.1 = b ∧ a.2 = markedL vs) (interpList E rec allow vs) (refList E r C allow vs)
  | [] => by rw [interpList, refList]; exact .pure ⟨rfl, rfl⟩
  | v :: vs => by
    rw [interpList, refList]
    by_cases hm : marked v = true
    · refine .bind (interp_sim allow hS v) (fun a b h => .bind (interpList_sim allow hS vs) (fun as bs hs => .pure ⟨?_, ?_⟩))
      · show (if a.2 then a.1.getD .null else v) :: as.1 = _
        rw [h.2, hm, if_pos rfl, h.1, hs.1]
      · show (a.2 || as.2) = _
        rw [h.2, hs.2, markedL]
    · have hm' : marked v = false := by simpa using hm
      rw [interp_plain E rec allow (plain_of_unmarked hm'), refInterp_unmarked allow hm', M.pure_bind, Ans.pure_bind]
      refine SimG.bind (Q := fun a b => a.1 = b ∧ a.2 = markedL vs) (interpList_sim allow hS vs) (fun as bs hs => .pure ⟨?_, ?_⟩)
      · show v :: as.1 = v :: bs
        rw [hs.1]
      · show (false || as.2) = _
        rw [hs.2, markedL, hm']
theorem interpMap_sim (allow : Bool) (hS : allow = true → S C.scope) : ∀ (cp : Entries) (es : List (Value × Value)),
    SimG I C (fun a b => a.1 = b ∧ a.2 = markedE es) (interpMap E rec allow cp es) (refEntries E r C allow cp es)
  | cp, [] => by rw [interpMap, refEntries]; exact .pure ⟨rfl, rfl⟩
  | cp, (k, v) :: es => by
    rw [interpMap, refEntries]
    refine .bind (interp_sim allow hS k) (fun a b h => .bind (interp_sim allow hS v) (fun a' b' h' => ?_))
    rw [h.1, h'.1]
    exact .mapL (interpMap_sim allow hS _ es) (fun as bs q => ⟨q.1, by
      show (a.2 || a'.2 || as.2) = _
      rw [h.2, h'.2, q.2, markedE]⟩)
end

theorem interpolate_sim (allow : Bool) (hS : allow = true → S C.scope) (v : Value) : SimH I C (interpolate E rec allow v) (refInterp E r C allow v) := by
  unfold interpolate
  intro s hs
  have := interp_sim (E := E) hr (C := C) allow hS v s hs
  match hx : refInterp E r C allow v, this with
  | none, h => exact bind_none h
  | some (.panic e), ⟨t, h⟩ => exact ⟨t, bind_panic h⟩
  | some (.ok b), ⟨a, t, h, q, ht⟩ =>
    refine ⟨b, t, ?_, rfl, ht⟩
    rw [bind_ok h]
    show some (Res.ok (if a.2 then a.1 else some v), t) = _
    rw [q.1, q.2]
    by_cases hm : marked v = true
    · rw [if_pos hm]
    · have hm' : marked v = false := by simpa using hm
      rw [refInterp_unmarked allow hm'] at hx
      cases hx
      rw [if_neg hm]

theorem runProg_sim (hS : S C.scope) {p : Prog} (hp : TameProg p) : SimH I C (runProg E rec p) (refProg E r C p) := by
  induction hp with
  | ret v => exact .pure rfl
  | panic e => exact .fail e
  | interpolate v k _ ih => exact .bindE (interpolate_sim hr true (fun _ => hS) v) ih
  | lookup key opts k _ ih => exact .bindE (.of _) (fun kk => .bindE (hr.lookup C kk opts hS) ih)
  | explain t k _ ih => exact .report _ ih
  | scopeGet key k _ ih =>
    refine .view (fun v hv => ?_)
    rw [hv]
    exact ih _


/-! ### Merging -/

omit hr in
theorem mergeM_sim {ι : Type} (st : Strategy) (vs : List ι) (f : ι → M (Option Value)) (g : ι → Ans (Option Value))
    (h : ∀ v ∈ vs, SimH I C (f v) (g v)) : SimH I C (mergeM st vs f) (refMerge st (vs.map g)) := by
  have first : ∀ ws : List ι, (∀ v ∈ ws, SimH I C (f v) (g v)) → SimH I C (firstLoop f ws) (refFirst (ws.map g)) := by
    intro ws
    induction ws with
    | nil => exact fun _ => .pure rfl
    | cons w ws ih =>
      intro hw
      refine .bindE (hw w (by simp)) (fun v => ?_)
      cases v with
      | none => exact ih (fun v hv => hw v (by simp [hv]))
      | some v => exact .pure rfl
  have loop : ∀ (ws : List ι) (memo : Option Value), (∀ v ∈ ws, SimH I C (f v) (g v)) →
      SimG I C (fun a b => a = (match memo with | none => refCombine st b | some m => some (b.foldl st.merge m)))
        (mergeLoop st f memo ws) (refFound (ws.map g)) := by
    intro ws
    induction ws with
    | nil =>
      intro memo _
      refine .pure ?_
      cases memo <;> rfl
    | cons w ws ih =>
      intro memo hw
      refine .bindE (hw w (by simp)) (fun v => ?_)
      have hw' : ∀ v ∈ ws, SimH I C (f v) (g v) := fun v hv => hw v (by simp [hv])
      cases v with
      | none => exact .mapR (ih memo hw') (fun a b e => e)
      | some x =>
        cases memo with
        | none => exact .mapR (ih _ hw') (fun a b e => e)
        | some m => exact .mapR (ih _ hw') (fun a b e => e)
  have fin : ∀ {x : Ans (List Value)} {m : M (Option Value)}, SimG I C (fun a b => a = refCombine st b) m x →
      SimH I C (m >>= fun r => match r with | some v => (do report (.result v); pure (some v)) | none => pure none)
        (x >>= fun vs => pure (refCombine st vs)) := by
    intro x m hm
    refine .bind hm (fun a b e => ?_)
    subst e
    cases refCombine st b with
    | none => exact .pure rfl
    | some v => exact .report _ (.pure rfl)
  have many : st ≠ .first → ∀ ws : List ι, ws.length ≠ 1 → (∀ v ∈ ws, SimH I C (f v) (g v)) →
      SimH I C (mergeM st ws f) (refFound (ws.map g) >>= fun vs => pure (refCombine st vs)) := by
    intro hst ws hl hw
    match ws, hl with
    | [], _ => cases st <;> exact .pure rfl
    | a :: b :: cs, _ =>
      cases st with
      | first => exact absurd rfl hst
      | unique => exact .node _ (fin (loop (a :: b :: cs) none hw))
      | hash => exact .node _ (fin (loop (a :: b :: cs) none hw))
      | deep o => exact .node _ (fin (loop (a :: b :: cs) none hw))
  have one : st ≠ .first → ∀ a, SimH I C (f a) (g a) →
      SimH I C (mergeM st [a] f) (g a >>= fun v => pure (v.map st.single)) := by
    intro hst a ha
    have : SimH I C (f a >>= fun r => match r with | some x => pure (some (st.single x)) | none => pure none)
        (g a >>= fun v => pure (v.map st.single)) := by
      refine .bindE ha (fun v => ?_)
      cases v <;> exact .pure rfl
    cases st with
    | first => exact absurd rfl hst
    | unique => exact this
    | hash => exact this
    | deep o => exact this
  cases st with
  | first =>
    match vs, h with
    | [], _ => exact .pure rfl
    | [a], h =>
      have := h a (by simp)
      show SimH I C (f a) (refFirst [g a])
      have e : refFirst [g a] = g a := by
        unfold refFirst
        match g a with
        | none => rfl
        | some (.ok (some _)) => rfl
        | some (.ok none) => rfl
        | some (.panic _) => rfl
      rw [e]
      exact this
    | a :: b :: cs, h =>
      refine .retR (.bindE (first (a :: b :: cs) h) (fun r => ?_))
      cases r
      · exact .pure rfl
      · exact .report _ (.pure rfl)
  | unique =>
    match vs, h with
    | [], _ => exact .pure rfl
    | [a], h => exact one (by simp) a (h a (by simp))
    | a :: b :: cs, h => exact many (by simp) (a :: b :: cs) (by simp) h
  | hash =>
    match vs, h with
    | [], _ => exact .pure rfl
    | [a], h => exact one (by simp) a (h a (by simp))
    | a :: b :: cs, h => exact many (by simp) (a :: b :: cs) (by simp) h
  | deep o =>
    match vs, h with
    | [], _ => exact .pure rfl
    | [a], h => exact one (by simp) a (h a (by simp))
    | a :: b :: cs, h => exact many (by simp) (a :: b :: cs) (by simp) h

omit hr in
theorem reportResult_sim (k : Str) (v : Option Value) : SimH I C (reportResult k v) (pure v) := by
  cases v with
  | none => exact .report _ (.pure rfl)
  | some v => exact .report _ (.pure rfl)

end

section
variable {E : Env} {site : Option Site} {S : Scope → Prop} {rec : Rec} {r : Ref} (hr : RecSim E site S rec r) {C : Ctx}
include hr

/-! ### Sources -/

omit hr in
theorem loadOnce_sim (p : Prov) (n : Str) : SimE E site C (loadOnce E p n) (Ans.of (loadFunction E p.entry n)) := by
  intro s hs
  obtain ⟨ld, h⟩ := loadOnce_run E p n s hs.on
  cases hl : loadFunction E p.entry n with
  | panic e => rw [hl] at h; exact ⟨_, h⟩
  | ok f =>
    rw [hl] at h
    exact ⟨f, _, h, rfl, ⟨hs.on, hs.scope, hs.coh, fun x hx => ⟨(hs.at_ x hx).cfg⟩, hs.within, fun hn => ⟨(hs.un hn).1, (hs.un hn).2, (hs.un hn).3⟩⟩⟩

omit hr in
theorem dataHash_sim (p : Prov) (n : Str) (loc : Option Loc) (hf : Fits p n loc) :
    SimE E site C (dataHash E p n loc) (Ans.of (refHash E p.entry n (optionsFor p loc))) := by
  intro s hs
  obtain ⟨hs', ld, tr, h, hc⟩ := dataHash_coherent E p n loc hf s hs.on hs.coh
  have e : hashOf E p n (optionsFor p loc) = refHash E p.entry n (optionsFor p loc) := rfl
  rw [e] at h
  cases hl : refHash E p.entry n (optionsFor p loc) with
  | panic e => rw [hl] at h; exact ⟨_, h⟩
  | ok f =>
    rw [hl] at h
    exact ⟨f, _, h, rfl, ⟨hs.on, hs.scope, hc, fun x hx => ⟨(hs.at_ x hx).cfg⟩, hs.within, fun hn => ⟨(hs.un hn).1, (hs.un hn).2, (hs.un hn).3⟩⟩⟩

omit hr in
theorem SimG.emit {α β : Type} {Q : α → β → Prop} {m : M α} {x : Ans β} (e : Ev) (h : SimQ E site C Q m x) :
    SimQ E site C Q (emit e >>= fun _ => m) x := .update (fun _ => ⟨rfl, rfl, rfl, rfl, rfl⟩) h

theorem provLookup_sim (hS : S C.scope) (hF : ∀ e n f, loadFunction E e n = .ok (some (.key f)) → Suits E f) (p : Prov) (loc : Option Loc) (k : Key)
    (hl : loc.isSome = p.entry.locations.isSome) : SimE E site C (provLookup E rec p loc k) (refSource E r C k p.entry loc) := by
  have ho : refOpts p.entry loc = optionsFor p loc := by cases loc <;> rfl
  unfold provLookup refSource
  rw [ho]
  rcases hn : p.entry.function with _ | ⟨_ | _ | _, n⟩
  · exact .fail _
  · refine .bindE (loadOnce_sim p n) (fun f => ?_)
    cases f with
    | none => exact reportResult_sim _ _
    | some f =>
      cases f with
      | dig f =>
        refine .emit _ (.bindE (.of _) (fun v => ?_))
        cases v with
        | none => exact reportResult_sim _ _
        | some v => exact .report _ (.pure rfl)
      | hash f => exact .fail _
      | key f => exact .fail _
  · refine .bindE (dataHash_sim p n loc ⟨hn, hl⟩) (fun h => ?_)
    cases Entries.getS h k.root with
    | none => exact reportResult_sim _ _
    | some v =>
      exact .retR (.bindE (interpolate_sim hr.toRecSimG true (fun _ => hS) v) (fun v => reportResult_sim _ v))
  · unfold lookupKeyLookup
    dsimp only
    by_cases h1 : n = "environment".toList
    · rw [if_pos h1, if_pos h1]
      exact .emit _ (reportResult_sim _ _)
    · rw [if_neg h1, if_neg h1]
      by_cases h2 : n = "scope".toList
      · rw [if_pos h2, if_pos h2]
        refine .emit _ (.view (fun v hv => ?_))
        rw [hv]
        exact reportResult_sim _ _
      · rw [if_neg h2, if_neg h2]
        refine .bindOf (loadOnce_sim p n) (fun f hf => ?_)
        cases f with
        | none => exact reportResult_sim _ _
        | some f =>
          cases f with
          | key f => exact .emit _ (.retR (.bindE (hr.call C f _ _ hS (hF _ _ f hf)) (fun v => reportResult_sim _ v)))
          | hash f => exact .fail _
          | dig f => exact .fail _

section
variable (hF : ∀ e n f, loadFunction E e n = .ok (some (.key f)) → Suits E f) (hS : S C.scope)
include hF hS

theorem invoke_sim (p : Prov) (k : Key) (l : Loc) (hl : p.entry.locations.isSome = true) :
    SimE E site C (invokeWithLocation E rec p k l) (refAt E r C k p.entry l) := by
  unfold invokeWithLocation
  refine .node _ ?_
  cases l with
  | path o q b =>
    cases b with
    | true => rw [if_pos (by rfl)]; exact provLookup_sim hr hS hF p (some _) k hl.symm
    | false => rw [if_neg (by intro h; cases h)]; exact .report _ (.pure rfl)
  | uri o q => rw [if_pos (by rfl)]; exact provLookup_sim hr hS hF p (some _) k hl.symm
  | glob o => rw [if_neg (by intro h; cases h)]; exact .report _ (.pure rfl)
  | mapped a b c => rw [if_neg (by intro h; cases h)]; exact .report _ (.pure rfl)

theorem mergeLocations_sim (k : Key) (st : Strategy) (p : Prov) :
    SimE E site C (mergeLocations E rec k st p) (refEntry E r C k st p.entry) := by
  unfold mergeLocations refEntry
  refine .node _ ?_
  cases hl : p.entry.locations with
  | none => exact provLookup_sim hr hS hF p none k (by rw [hl]; rfl)
  | some ls =>
    match ls, hl with
    | [], _ => cases st <;> exact .pure rfl
    | [l], hl => exact invoke_sim hr hF hS p k l (by rw [hl]; rfl)
    | a :: b :: cs, hl => exact mergeM_sim st (a :: b :: cs) _ _ (fun l _ => invoke_sim hr hF hS p k l (by rw [hl]; rfl))

theorem mergeHierarchy_sim (k : Key) (ps : List Prov) (st : Strategy) :
    SimE E site C (mergeHierarchy E rec k ps st) (refHierarchy E r C k st (ps.map Prov.entry)) := by
  unfold mergeHierarchy refHierarchy
  rw [List.map_map]
  exact mergeM_sim st ps _ _ (fun p _ => mergeLocations_sim hr hF hS k st p)

/-! ### Lookup functions -/

omit hr hF hS in
theorem SimG.redacted {α β : Type} {Q : α → β → Prop} {m : M α} {x : Ans β} (h : SimQ E site C Q m x) :
    SimQ E site C Q (doRedacted m) x := by
  intro s hs
  unfold doRedacted
  by_cases hd : s.v.ic.redacted = true
  · rw [if_pos hd]; exact h s hs
  · rw [if_neg hd]
    have hi : ∀ {u : St} (b : Bool), Inv E site C u → Inv E site C { u with v := { u.v with ic := { u.v.ic with redacted := b } } } :=
      fun b hu => ⟨hu.on, hu.scope, hu.coh, fun x hx => ⟨(hu.at_ x hx).cfg⟩, fun hx ht => by
        refine ⟨(hu.within hx ht).1, ?_⟩
        have := (hu.within hx ht).2
        unfold WithinIs at this ⊢
        cases hC : C.within <;> rw [hC] at this <;> exact this, fun hn => ⟨(hu.un hn).1, (hu.un hn).2, (hu.un hn).3⟩⟩
    have h1 := h { s with v := { s.v with ic := { s.v.ic with redacted := true } } } (hi true hs)
    match x, h1 with
    | none, h1 => rw [h1]
    | some (.ok b), ⟨a, t, h1, q, ht⟩ => rw [h1]; exact ⟨a, _, rfl, q, hi false ht⟩
    | some (.panic e), ⟨t, h1⟩ => rw [h1]; exact ⟨_, rfl⟩

omit hr hF hS in
theorem setMergeStrategy_quiet (opts : Entries) (lo : Option Entries) (s : St) (ho : s.on = none) :
    setMergeStrategy (Entries.getS opts "merge".toList) lo s =
      match getStrategy (strategyNamed (refMergeOption opts lo)).1 (strategyNamed (refMergeOption opts lo)).2 with
      | .panic e => some (.panic e, { s with v := { s.v with ic := { s.v.ic with luOpts := lo } } })
      | .ok st => some (.ok (), { s with v := { s.v with ic := { s.v.ic with luOpts := lo, strategy := some st } } }) := by
  have hm : mergeOption (Entries.getS opts "merge".toList) lo s = some (.ok (refMergeOption opts lo), s) := by
    unfold mergeOption refMergeOption
    cases Entries.getS opts "merge".toList with
    | some o => dsimp only; rw [bind_ok (Quiet.off_report ho)]; rfl
    | none =>
      cases lo with
      | none => rfl
      | some m =>
        dsimp only
        cases Entries.getS m "merge".toList with
        | none => rfl
        | some o => dsimp only; rw [bind_ok (Quiet.off_report ho)]; rfl
  unfold setMergeStrategy
  rw [bind_ok hm, bind_ok (show setLuOpts lo s = some (.ok (), { s with v := { s.v with ic := { s.v.ic with luOpts := lo } } }) from rfl)]
  cases getStrategy (strategyNamed (refMergeOption opts lo)).1 (strategyNamed (refMergeOption opts lo)).2 with
  | panic e => rfl
  | ok st => rfl

variable (hc : site = none → ∀ C s, S C.scope → Inv E none C s → config E rec E.configPath [] s = none)
include hc

omit hr hF hS hc in
theorem optionsOf_eq {rc : RCfg} {x : Site} (h2 : rc.lookupOptions = x.options) (h3 : rc.moduleName = []) (k : Key) :
    rc.optionsOf k = x.optionsOf k := by
  unfold RCfg.optionsOf Site.optionsOf
  rw [h2]
  cases x.options with
  | none => rfl
  | some lo => dsimp only; rw [if_pos (.inl h3)]

theorem configAt_at (opts : Entries) (key : Str) (ht : C.within = .call → E.top = .config) {s : St} (hs : Inv E site C s)
    (hw : site.isSome = true → WithinIs C.within s.v.ic) :
    Follows E site C Eq (configAt E rec E.configPath opts key [] s) (refConfig E site r C opts key) := by
  unfold configAt refConfig
  cases hsite : site with
  | none =>
    subst hsite
    exact bind_none (hc rfl C s hS hs)
  | some x =>
    subst hsite
    obtain ⟨rc, ha, h1, h2, h3⟩ := (hs.at_ x rfl).cfg
    have hw := hw rfl
    rw [bind_ok (config_path rec [] s ha)]
    cases hk : newKey key with
    | panic e => exact ⟨s, rfl⟩
    | ok k =>
      rw [M.lift_ok_bind, bind_ok (show view s = some (.ok s.v, s) from rfl)]
      dsimp only
      rw [Ans.of_ok_bind]
      unfold WithinIs at hw
      cases hC : C.within with
      | value st =>
        rw [hC] at hw
        obtain ⟨hm, hst⟩ := hw
        rw [hm]
        dsimp only
        cases st with
        | none =>
          refine ⟨s, bind_panic ?_⟩
          unfold currentStrategy
          rw [bind_ok (show view s = some (.ok s.v, s) from rfl), hst]
          rfl
        | some st =>
          rw [bind_ok (show currentStrategy s = some (.ok st, s) by
            unfold currentStrategy
            rw [bind_ok (show view s = some (.ok s.v, s) from rfl), hst]
            rfl)]
          have := mergeHierarchy_sim hr hF hS (C := C) k rc.providers st s hs
          rw [h1] at this
          exact this
      | options =>
        rw [hC] at hw
        rw [show s.v.ic.mode = .lookupOptions from hw]
        dsimp only
        rw [optionsOf_eq h2 h3]
        exact ⟨_, s, rfl, rfl, hs⟩
      | call =>
        rw [hC] at hw
        obtain ⟨hm, hst⟩ := hw
        rw [hm]
        dsimp only
        unfold forData
        rw [bind_ok (show view s = some (.ok s.v, s) from rfl), if_neg (by rw [hm]; simp)]
        unfold withCopy
        have ho : explForData s.on = none := by rw [hs.on]; rfl
        rw [Quiet.off_withNode (by exact ho), optionsOf_eq h2 h3]
        generalize hs1 : ({ s with v := { s.v with ic := { s.v.ic with mode := .data } }, on := explForData s.on } : St) = s1
        have ho1 : s1.on = none := by rw [← hs1]; exact ho
        rw [bind_def, setMergeStrategy_quiet opts (x.optionsOf k) s1 ho1]
        cases hg : getStrategy (strategyNamed (refMergeOption opts (x.optionsOf k))).1 (strategyNamed (refMergeOption opts (x.optionsOf k))).2 with
        | panic e => exact ⟨_, rfl⟩
        | ok st =>
          rw [Ans.of_ok_bind]
          dsimp only
          generalize hs2 : ({ s1 with v := { s1.v with ic := { s1.v.ic with luOpts := x.optionsOf k, strategy := some st } } } : St) = s2
          have hlu : s2.v.ic.luOpts = x.optionsOf k := by rw [← hs2]
          have hi : Inv E (some x) { C with within := .value (some st) } s2 := by
            rw [← hs2]
            exact ⟨ho1, by rw [← hs1]; exact hs.scope, by rw [← hs1]; exact hs.coh,
              fun y hy => ⟨by rw [← hs1]; exact (hs.at_ y hy).cfg⟩, fun _ _ => ⟨by simp, by rw [← hs1], rfl⟩, fun h => nomatch h⟩
          have inner : SimE E (some x) { C with within := .value (some st) }
              (currentStrategy >>= fun st => mergeHierarchy E rec k rc.providers st)
              (refHierarchy E r { C with within := .value (some st) } k st x.entries) := by
            intro u hu
            have hw := (hu.within rfl (ht hC)).2.2
            rw [bind_ok (show currentStrategy u = some (.ok st, u) by
              unfold currentStrategy
              rw [bind_ok (show view u = some (.ok u.v, u) from rfl), hw]
              rfl)]
            have := mergeHierarchy_sim hr hF hS (C := { C with within := .value (some st) }) k rc.providers st u hu
            rw [h1] at this
            exact this
          have conv : Follows E (some x) { C with within := .value (some st) } Eq
              (lookupAndConvert E (currentStrategy >>= fun st => mergeHierarchy E rec k rc.providers st) s2)
              (Ans.of (extractConversion E (x.optionsOf k)) >>= fun c =>
                refHierarchy E r { C with within := .value (some st) } k st x.entries >>= fun v => Ans.of (convert E v c)) := by
            unfold lookupAndConvert
            rw [bind_ok (show view s2 = some (.ok s2.v, s2) from rfl), hlu]
            have conv' : SimE E (some x) { C with within := .value (some st) } (lift (extractConversion E (x.optionsOf k)) >>= fun c =>
                maybeRedacted E c (currentStrategy >>= fun st => mergeHierarchy E rec k rc.providers st) >>= fun r => lift (convert E r c))
                (Ans.of (extractConversion E (x.optionsOf k)) >>= fun c =>
                refHierarchy E r { C with within := .value (some st) } k st x.entries >>= fun v => Ans.of (convert E v c)) := by
              refine .bindE (.of _) (fun c => .bindE ?_ (fun v => .of _))
              unfold maybeRedacted
              rcases c with _ | ⟨t, as⟩
              · exact inner
              · dsimp only
                split
                · exact .redacted inner
                · exact inner
            exact conv' s2 hi
          match hx : (Ans.of (extractConversion E (x.optionsOf k)) >>= fun c =>
                refHierarchy E r { C with within := .value (some st) } k st x.entries >>= fun v => Ans.of (convert E v c)), conv with
          | none, h => rw [h]
          | some (.panic e), ⟨t, h⟩ => rw [h]; exact ⟨_, rfl⟩
          | some (.ok b), ⟨a, t, h, e, ht⟩ =>
            rw [h]
            exact ⟨a, _, rfl, e, ⟨hs.on, hs.scope, ht.coh, fun y hy => ⟨(ht.at_ y hy).cfg⟩, hs.within, fun h => nomatch h⟩⟩

theorem configAt_sim (ht : E.top = .config) (opts : Entries) (key : Str) :
    SimE E site C (configAt E rec E.configPath opts key []) (refConfig E site r C opts key) :=
  fun _ hs => configAt_at hr hF hS hc opts key (fun _ => ht) hs (fun h => (hs.within h ht).2)

omit hr hF hS hc in
theorem mergeM_head {ι : Type} (st : Strategy) (a : ι) (vs : List ι) (f f' : ι → M (Option Value)) {s : St} (ho : s.on = none)
    (h1 : f a s = f' a s) (h2 : ∀ v ∈ vs, f v = f' v) : mergeM st (a :: vs) f s = mergeM st (a :: vs) f' s := by
  have first : ∀ ws : List ι, (∀ v ∈ ws, f v = f' v) → firstLoop f ws = firstLoop f' ws := by
    intro ws
    induction ws with
    | nil => exact fun _ => rfl
    | cons w ws ih => intro h; unfold firstLoop; rw [h w (by simp), ih (fun v hv => h v (by simp [hv]))]
  have loop : ∀ (ws : List ι) (memo : Option Value), (∀ v ∈ ws, f v = f' v) → mergeLoop st f memo ws = mergeLoop st f' memo ws := by
    intro ws
    induction ws with
    | nil => exact fun _ _ => rfl
    | cons w ws ih =>
      intro memo h
      have := fun memo => ih memo (fun v hv => h v (by simp [hv]))
      unfold mergeLoop
      rw [h w (by simp)]
      simp only [this]
  have l1 : firstLoop f (a :: vs) s = firstLoop f' (a :: vs) s := by
    unfold firstLoop
    rw [bind_def, bind_def, h1, first vs h2]
  have l2 : mergeLoop st f none (a :: vs) s = mergeLoop st f' none (a :: vs) s := by
    unfold mergeLoop
    rw [bind_def, bind_def, h1]
    have := fun memo => loop vs memo h2
    simp only [this]
  cases vs with
  | nil =>
    cases st with
    | first => exact h1
    | unique => show (f a >>= _) s = (f' a >>= _) s; rw [bind_def, bind_def, h1]
    | hash => show (f a >>= _) s = (f' a >>= _) s; rw [bind_def, bind_def, h1]
    | deep o => show (f a >>= _) s = (f' a >>= _) s; rw [bind_def, bind_def, h1]
  | cons b vs =>
    cases st with
    | first => show (firstLoop f _ >>= _) s = (firstLoop f' _ >>= _) s; rw [bind_def, bind_def, l1]
    | unique =>
      show withNode _ (mergeLoop _ f none _ >>= _) s = withNode _ (mergeLoop _ f' none _ >>= _) s
      rw [Quiet.off_withNode ho, Quiet.off_withNode ho, bind_def, bind_def, l2]
    | hash =>
      show withNode _ (mergeLoop _ f none _ >>= _) s = withNode _ (mergeLoop _ f' none _ >>= _) s
      rw [Quiet.off_withNode ho, Quiet.off_withNode ho, bind_def, bind_def, l2]
    | deep o =>
      show withNode _ (mergeLoop _ f none _ >>= _) s = withNode _ (mergeLoop _ f' none _ >>= _) s
      rw [Quiet.off_withNode ho, Quiet.off_withNode ho, bind_def, bind_def, l2]

/-- A computation with the outcomes of the reference. -/
def Ans.toM {α : Type} (x : Ans α) : M α := fun s => x.map (fun r => (r, s))

omit hr hF hS hc in
theorem Ans.toM_sim {α : Type} (x : Ans α) : SimE E site C (Ans.toM x) x := by
  intro s hs
  match x with
  | none => rfl
  | some (.ok a) => exact ⟨a, s, rfl, rfl, hs⟩
  | some (.panic e) => exact ⟨s, rfl⟩

open Classical in
omit hr hF hS hc in
/-- Merging, where the first function is known to do what it should from one state only. -/
theorem mergeM_from (st : Strategy) (fs : List LkFn) (hn : .config ∉ fs) (f : LkFn → M (Option Value)) (g : LkFn → Ans (Option Value))
    {s : St} (hs : Inv E site C s) (h1 : Follows E site C Eq (f .config s) (g .config)) (h2 : ∀ v ∈ fs, SimE E site C (f v) (g v)) :
    Follows E site C Eq (mergeM st (.config :: fs) f s) (refMerge st ((.config :: fs).map g)) := by
  let f' : LkFn → M (Option Value) := fun v => if v = .config then (fun u => if u = s then f .config u else Ans.toM (g .config) u) else f v
  have e : ∀ v ∈ fs, f v = f' v := fun v hv => (if_neg (fun (h : v = .config) => hn (h ▸ hv))).symm
  have e0 : f' .config = fun u => if u = s then f .config u else Ans.toM (g .config) u := if_pos rfl
  rw [mergeM_head st .config fs f f' hs.on (by rw [e0]; exact (if_pos rfl).symm) e]
  refine mergeM_sim st (.config :: fs) f' g (fun v hv => ?_) s hs
  rcases List.mem_cons.1 hv with h | h
  · subst h
    rw [e0]
    intro u hu
    dsimp only
    by_cases hus : u = s
    · rw [if_pos hus, hus]; exact h1
    · rw [if_neg hus]; exact Ans.toM_sim _ u hu
  · rw [← e v h]; exact h2 v h

section
variable (hm : E.top ≠ .config)
include hm

omit hr hF hS hc in
theorem forOptions_mux {α β : Type} {Q : α → β → Prop} {m : M α} {x : Ans β}
    (h : ∀ s, Inv E site C s → s.v.ic.mode = .lookupOptions → Follows E site C Q (m s) x) : SimQ E site C Q (forLookupOptions m) x := by
  intro s hs
  unfold forLookupOptions
  rw [bind_ok (show view s = some (.ok s.v, s) from rfl)]
  split
  · exact h s hs (by assumption)
  · unfold withCopy
    have h1 := h _ (hs.withMode hm { s.v.ic with mode := .lookupOptions } rfl (explForOptions s.on) (by rw [hs.on]; rfl)) rfl
    match x, h1 with
    | none, h1 => rw [h1]
    | some (.panic e), ⟨t, h1⟩ => rw [h1]; exact ⟨_, rfl⟩
    | some (.ok b), ⟨a, t, h1, q, ht⟩ =>
      rw [h1]
      exact ⟨a, _, rfl, q, ht.withMode hm s.v.ic (by rw [ht.scope, hs.scope]) s.on hs.on⟩

omit hr hF hS hc in
theorem forData_mux {α β : Type} {Q : α → β → Prop} {m : M α} {x : Ans β}
    (h : ∀ s, Inv E site C s → s.v.ic.mode = .data → Follows E site C Q (m s) x) : SimQ E site C Q (forData m) x := by
  intro s hs
  unfold forData
  rw [bind_ok (show view s = some (.ok s.v, s) from rfl)]
  split
  · exact h s hs (by assumption)
  · unfold withCopy
    have h1 := h _ (hs.withMode hm { s.v.ic with mode := .data } rfl (explForData s.on) (by rw [hs.on]; rfl)) rfl
    match x, h1 with
    | none, h1 => rw [h1]
    | some (.panic e), ⟨t, h1⟩ => rw [h1]; exact ⟨_, rfl⟩
    | some (.ok b), ⟨a, t, h1, q, ht⟩ =>
      rw [h1]
      exact ⟨a, _, rfl, q, ht.withMode hm s.v.ic (by rw [ht.scope, hs.scope]) s.on hs.on⟩

omit hr hF hS hc in
theorem SimG.within {α β : Type} {Q : α → β → Prop} {m : M α} {x : Ans β} (w : Within)
    (h : SimQ E site { C with within := w } Q m x) : SimQ E site C Q m x := by
  intro s hs
  have := h s (hs.any hm _ rfl)
  match x, this with
  | none, h => exact h
  | some (.ok b), ⟨a, t, h, q, ht⟩ => exact ⟨a, t, h, q, ht.any hm _ rfl⟩
  | some (.panic e), h => exact h

/-- The several functions, for one purpose. -/
theorem mergeFns_at (st : Strategy) (fs : List LkFn) (hn : .config ∉ fs) (hfs : ∀ f ∈ fs, Stateless f) (w : Within) (hw : w ≠ .call)
    (o : Entries) (k : Str) {s : St} (hs : Inv E site C s) (hi : WithinIs w s.v.ic) :
    Follows E site C Eq (mergeM st (.config :: fs) (fun f => rec.lk f o k) s)
      (refMerge st ((.config :: fs).map (fun f => r.call { C with within := w } f o k))) := by
  have h1 := hr.config { C with within := w } o k hS hw s (hs.any hm _ rfl) (fun _ => hi)
  refine mergeM_from st fs hn _ (fun f => r.call { C with within := w } f o k) hs ?_ (fun f hf => .within hm w (hr.call _ f o k hS ⟨hfs f hf, ?_⟩))
  · match hx : r.call { C with within := w } .config o k, h1 with
    | none, h => exact h
    | some (.ok b), ⟨a, t, h, q, ht⟩ => exact ⟨a, t, h, q, ht.any hm _ rfl⟩
    | some (.panic e), h => exact h
  · intro hc
    exact absurd (hc ▸ hf) hn

theorem muxLookup_sim {fs : List LkFn} (he : E.muxFns = some (.config :: fs)) (hn : .config ∉ fs) (hfs : ∀ f ∈ fs, Stateless f)
    (opts : Entries) (key : Str) : SimE E site C (muxLookup E rec opts key) (refMux E r C opts key) := by
  unfold muxLookup refMux
  rw [he]
  dsimp only
  refine .bindE (forOptions_mux hm (fun s hs hi => mergeFns_at hr hF hS hc hm _ fs hn hfs .options (by simp) opts key hs hi)) (fun lo => ?_)
  refine forData_mux hm (fun s hs hi => ?_)
  cases hk : newKey key with
  | panic e => exact ⟨s, rfl⟩
  | ok k =>
    rw [M.lift_ok_bind, Quiet.off_withNode hs.on, Ans.of_ok_bind, bind_def, setMergeStrategy_quiet opts (asMap lo) s hs.on]
    cases hg : getStrategy (strategyNamed (refMergeOption opts (asMap lo))).1 (strategyNamed (refMergeOption opts (asMap lo))).2 with
    | panic e => exact ⟨_, rfl⟩
    | ok st =>
      rw [Ans.of_ok_bind]
      dsimp only
      have hi1 := hs.withMode hm { s.v.ic with luOpts := asMap lo, strategy := some st } rfl s.on hs.on
      generalize hs1 : ({ s with v := { s.v with ic := { s.v.ic with luOpts := asMap lo, strategy := some st } } } : St) = s1
      have hi2 : Inv E site C s1 := by rw [← hs1]; exact hi1
      have hlu : s1.v.ic.luOpts = asMap lo := by rw [← hs1]
      have hmo : s1.v.ic.mode = .data := by rw [← hs1]; exact hi
      have hst : s1.v.ic.strategy = some st := by rw [← hs1]
      unfold lookupAndConvert
      rw [bind_ok (show view s1 = some (.ok s1.v, s1) from rfl), hlu]
      cases hx : extractConversion E (asMap lo) with
      | panic e => exact ⟨s1, rfl⟩
      | ok c =>
        rw [M.lift_ok_bind, Ans.of_ok_bind]
        have inner : ∀ u : St, Inv E site C u → u.v.ic.mode = .data → u.v.ic.strategy = some st → Follows E site C Eq
            ((currentStrategy >>= fun st => mergeM st (.config :: fs) (fun f => rec.lk f opts key)) u)
            (refMerge st ((.config :: fs).map (fun f => r.call { C with within := .value (some st) } f opts key))) := by
          intro u hu h1 h2
          rw [bind_ok (show currentStrategy u = some (.ok st, u) by
            unfold currentStrategy
            rw [bind_ok (show view u = some (.ok u.v, u) from rfl), h2]
            rfl)]
          exact mergeFns_at hr hF hS hc hm _ fs hn hfs _ (by simp) opts key hu ⟨h1, h2⟩
        generalize refMerge st ((.config :: fs).map (fun f => r.call { C with within := .value (some st) } f opts key)) = X at inner ⊢
        have red : Follows E site C Eq (maybeRedacted E c (currentStrategy >>= fun st => mergeM st (.config :: fs) (fun f => rec.lk f opts key)) s1) X := by
          have plain := inner s1 hi2 hmo hst
          unfold maybeRedacted
          rcases c with _ | ⟨t, as⟩
          · exact plain
          · dsimp only
            split
            · unfold doRedacted
              by_cases hd : s1.v.ic.redacted = true
              · rw [if_pos hd]; exact plain
              · rw [if_neg hd]
                have h1 := inner _ (hi2.withMode hm { s1.v.ic with redacted := true } rfl s1.on hi2.on) hmo hst
                match X, h1 with
                | none, h1 => rw [h1]
                | some (.ok b), ⟨a, t, h1, q, ht⟩ =>
                  rw [h1]
                  exact ⟨a, _, rfl, q, ht.withMode hm { t.v.ic with redacted := false } rfl t.on ht.on⟩
                | some (.panic e), ⟨t, h1⟩ => rw [h1]; exact ⟨_, rfl⟩
            · exact plain
        match X, red with
        | none, h => exact bind_none h
        | some (.panic e), ⟨t, h⟩ => exact ⟨t, bind_panic h⟩
        | some (.ok b), ⟨a, t, h, q, ht⟩ =>
          subst q
          rw [bind_ok h]
          exact SimG.of (convert E a c) t ht
end

theorem callLk_sim (f : LkFn) (hf : Suits E f) (o : Entries) (k : Str) :
    SimE E site C (callLk E rec f o k) (refCall E site r C f o k) := by
  cases f with
  | config => exact configAt_sim hr hF hS hc (hf.2 rfl) o k
  | env => exact .pure rfl
  | scope =>
    refine .view (fun v hv => ?_)
    rw [hv]
    exact .pure rfl
  | custom f => exact runProg_sim hr.toRecSimG hS (hf.1 o k)
  | notFunction => exact .pure rfl
  | mux => exact hf.1.elim
  | yaml => exact hf.1.elim
  | module => exact hf.1.elim

theorem lookup_sim (he : StatelessEnv E) (k : Key) (o : Entries) : SimE E site C (lookup E rec k o) (refLookup E site r C k o) := by
  unfold lookup refLookup
  split
  · exact .node _ (.report _ (.pure rfl))
  · have inner : ∀ (C : Ctx) (v : Value), S C.scope → SimE E site C (interpolate E rec true v >>= fun r => dig k r)
        (refInterp E r C true v >>= fun r => pure (r.bind k.digPure)) :=
      fun C v hS => .bindE (interpolate_sim hr.toRecSimG true (fun _ => hS) v) (fun a => dig_sim k a)
    rcases he.top with ht | ⟨ht, fs, hfs, hn⟩
    · rw [ht]
      cases hsite : site with
      | none =>
        subst hsite
        intro s hs
        exact bind_none (configAt_sim hr hF hS hc (C := C) ht o k.root s hs)
      | some x =>
      subst hsite
      refine .bindE (configAt_sim hr hF hS hc (C := C) ht o k.root) (fun v => ?_)
      cases v with
      | none => exact .pure rfl
      | some v =>
        intro s hs
        unfold forData
        dsimp only
        rw [bind_ok (show view s = some (.ok s.v, s) from rfl)]
        obtain ⟨hno, hw⟩ := hs.within rfl ht
        unfold WithinIs at hw
        have other : s.v.ic.mode ≠ .data → C.final = { C with within := .value none } → s.v.ic.strategy = none →
            Follows E (some x) C Eq (withCopy (fun ic => { ic with mode := .data }) explForData (interpolate E rec true v >>= fun r => dig k r) s)
              (refInterp E r C.final true v >>= fun r => (pure (r.bind k.digPure) : Ans (Option Value))) := by
          intro hmo hf hst
          rw [hf]
          unfold withCopy
          dsimp only
          have := inner { C with within := .value none } v hS { s with v := { s.v with ic := { s.v.ic with mode := .data } }, on := explForData s.on }
            ⟨by show explForData s.on = none; rw [hs.on]; rfl, hs.scope, hs.coh, fun y hy => ⟨(hs.at_ y hy).cfg⟩, fun _ _ => ⟨by simp, rfl, hst⟩, fun h => nomatch h⟩
          match hx : (refInterp E r { C with within := .value none } true v >>= fun r => (pure (r.bind k.digPure) : Ans (Option Value))), this with
          | none, h => rw [h]
          | some (.panic e), ⟨t, h⟩ => rw [h]; exact ⟨_, rfl⟩
          | some (.ok b), ⟨a, t, h, e, ht⟩ =>
            rw [h]
            exact ⟨a, _, rfl, e, ⟨hs.on, hs.scope, ht.coh, fun y hy => ⟨(ht.at_ y hy).cfg⟩, hs.within, fun h => nomatch h⟩⟩
        cases hC : C.within with
        | value st =>
          rw [hC] at hw
          rw [if_pos hw.1]
          have : C.final = C := by unfold Ctx.final; rw [hC]
          rw [this]
          exact inner C v hS s hs
        | call =>
          rw [hC] at hw
          rw [if_neg (by rw [hw.1]; simp)]
          exact other (by rw [hw.1]; simp) (by unfold Ctx.final; rw [hC]) hw.2
        | options => exact absurd hC hno
    · rw [ht]
      have hm : E.top ≠ .config := by rw [ht]; simp
      refine .bindE (muxLookup_sim hr hF hS hc hm hfs hn (fun f hf => he.mux _ f hfs (by simp [hf])) o k.root) (fun v => ?_)
      cases v with
      | none => exact .pure rfl
      | some v =>
        refine forData_mux hm (fun s hs _ => ?_)
        have hC : C.final.scope = C.scope := by unfold Ctx.final; split <;> rfl
        have := inner C.final v (by rw [hC]; exact hS) s (hs.any hm _ hC)
        dsimp only
        generalize (refInterp E r C.final true v >>= fun r => (pure (r.bind k.digPure) : Ans (Option Value))) = X at this ⊢
        match X, this with
        | none, h => exact h
        | some (.ok b), ⟨a, t, h, q, ht⟩ => exact ⟨a, t, h, q, ht.any hm _ hC.symm⟩
        | some (.panic e), h => exact h

end
end

theorem RecSim.zero (E : Env) (site : Option Site) (S : Scope → Prop) : RecSim E site S (eval E 0) (ref E site 0) where
  lookup := fun _ _ _ _ _ _ => rfl
  interp := fun _ _ _ _ _ _ => rfl
  call := fun _ _ _ _ _ _ _ _ => rfl
  config := fun _ _ _ _ _ _ _ _ => rfl

theorem Spec.StatelessEnv.keyFn {E : Env} (he : StatelessEnv E) (e : Entry) (m : Str) (f : LkFn)
    (hl : loadFunction E e m = .ok (some (.key f))) : Suits E f := by
  unfold loadFunction at hl
  split at hl
  · rename_i g hg
    cases hl
    exact he.fns _ _ hg
  · split at hl
    · exact he.plugins _ _ _ hl
    · cases hl

theorem RecSim.succ {E : Env} (he : StatelessEnv E) {site : Option Site} {S : Scope → Prop} {n : Nat}
    (hc : site = none → ∀ C s, S C.scope → Inv E none C s → Hiera.config E (eval E n) E.configPath [] s = none)
    (h : RecSim E site S (eval E n) (ref E site n)) : RecSim E site S (eval E (n + 1)) (ref E site (n + 1)) :=
  ⟨⟨fun _ k o hS => lookup_sim h he.keyFn hS hc he k o, fun _ a v hS => (interp_sim h.toRecSimG a hS v).mono (fun _ _ h => h.1)⟩,
    fun _ f o k hS hf => callLk_sim h he.keyFn hS hc f hf o k,
    fun _ o k hS hC _ hs hw => configAt_at h he.keyFn hS hc o k (fun h => absurd h hC) hs hw⟩

theorem RecSim.resolved {E : Env} (he : StatelessEnv E) (x : Site) (n : Nat) :
    RecSim E (some x) (fun _ => True) (eval E n) (ref E (some x) n) := by
  induction n with
  | zero => exact .zero E _ _
  | succ n ih => exact .succ he (fun h => nomatch h) ih

end Hiera
