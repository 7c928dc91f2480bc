/-
  Lemmas about interpolation for the properties of function calls and of collections.
-/
import Verif.Lemmas.InterpEval
import Verif.Lemmas.Returns
import Verif.Lemmas.Map

set_option autoImplicit false
set_option linter.unusedSimpArgs false

namespace Hiera
open Spec

theorem lit_single (e : Str) : "%{".toList ++ e ++ "}".toList = '%' :: '{' :: e ++ ['}'] := by
  have h1 : "%{".toList = ['%', '{'] := by decide
  have h2 : "}".toList = ['}'] := by decide
  rw [h1, h2]
  rfl

theorem NeverOk.interpToks {E : Env} {rec : Rec} {str : Str} {allow : Bool} {e : Str}
    (he : ∀ st, NeverOk (interpExpr E rec str allow e st)) {ts : List Tok} (h : Tok.expr e ∈ ts) (st : IplState) :
    NeverOk (interpToks E rec str allow ts st) := by
  induction ts generalizing st with
  | nil => cases h
  | cons t ts ih =>
    cases t with
    | chr c =>
      rw [Hiera.interpToks]
      rcases List.mem_cons.1 h with h | h
      · cases h
      · exact ih h _
    | expr e' =>
      rw [Hiera.interpToks]
      rcases List.mem_cons.1 h with h | h
      · cases h; exact NeverOk.left _ (he st)
      · exact NeverOk.right _ (fun st' => ih h st')

theorem NeverOk.interpStr {E : Env} {rec : Rec} {s : Str} {allow : Bool} {e : Str} {ts : List Tok} (hs : Splits s ts)
    (he : ∀ st, NeverOk (interpExpr E rec s allow e st)) (h : Tok.expr e ∈ ts) : NeverOk (interpStr E rec s allow) := by
  have hm : hasMarker s = true := by
    cases hm : hasMarker s with
    | true => rfl
    | false =>
      exfalso
      have hu : ¬Marked s := fun h => by rw [← hasMarker_iff, hm] at h; cases h
      rw [splits_unique hs (splits_unmarked hu)] at h
      simp at h
  unfold Hiera.interpStr
  rw [hm, if_pos rfl]
  rw [← tokens_eq hs] at h
  exact NeverOk.left _ (NeverOk.withNode _ (NeverOk.left _ (NeverOk.interpToks he h _)))

theorem neverOk_expr (E : Env) (rec : Rec) (str : Str) {e x name arg : Str} (hx : Trimmed e x) (hc : Call x name arg)
    (st : IplState) : NeverOk (interpExpr E rec str false e st) := by
  have hm := (methodMatch_iff _ _ _).2 hc
  have hemp : emptyInterpolation x = false := by
    cases h : emptyInterpolation x with
    | false => rfl
    | true =>
      exfalso
      simp only [emptyInterpolation, Bool.or_eq_true, beq_iff_eq] at h
      rcases h with ((((h | h) | h) | h) | h) | h <;> subst h <;> cases hm
  unfold interpExpr
  rw [trimmed_unique hx]
  have hg : getMethodAndData x false = .panic .methodsNotAllowed := by unfold getMethodAndData; rw [hm]; rfl
  simp only [hemp, Bool.false_eq_true, if_false, hg]
  exact NeverOk.panic _

theorem neverOk_str (E : Env) (rec : Rec) {s : Str} (h : HasCall s) : NeverOk (interpStr E rec s false) := by
  obtain ⟨ts, e, x, name, arg, hs, he, hx, hc⟩ := h
  exact NeverOk.interpStr hs (neverOk_expr E rec s hx hc) he

theorem neverOk_list (E : Env) (rec : Rec) {v : Value} {vs : List Value} (hv : NeverOk (interp E rec false v))
    (h : v ∈ vs) : NeverOk (interpList E rec false vs) := by
  induction vs with
  | nil => cases h
  | cons w ws ih =>
    rw [interpList]
    rcases List.mem_cons.1 h with rfl | h
    · exact NeverOk.left _ hv
    · exact NeverOk.right _ (fun _ => NeverOk.left _ (ih h))

theorem neverOk_map (E : Env) (rec : Rec) {k v : Value} {es : List (Value × Value)}
    (hv : NeverOk (interp E rec false k) ∨ NeverOk (interp E rec false v)) (h : (k, v) ∈ es) (cp : Entries) :
    NeverOk (interpMap E rec false cp es) := by
  induction es generalizing cp with
  | nil => cases h
  | cons w ws ih =>
    rw [interpMap]
    rcases List.mem_cons.1 h with rfl | h
    · rcases hv with hv | hv
      · exact NeverOk.left _ hv
      · exact NeverOk.right _ (fun _ => NeverOk.left _ hv)
    · exact NeverOk.right _ (fun _ => NeverOk.right _ (fun _ => NeverOk.left _ (ih h _)))

theorem hasCall_ne_nil {s : Str} (h : HasCall s) : s ≠ [] := by
  rintro rfl
  obtain ⟨ts, e, _, _, _, hs, he, _⟩ := h
  cases hs
  cases he

theorem neverOk_cfg (E : Env) (rec : Rec) {s : Str} (h : HasCall s) : NeverOk (interpCfg E rec s) :=
  NeverOk.left _ (neverOk_str E rec h)

theorem neverOk_loc (E : Env) (rec : Rec) (d : Str) {l : Loc} (h : HasCallL l) : NeverOk (l.resolve E rec d) := by
  cases h with
  | path h => exact NeverOk.left _ (neverOk_cfg E rec h)
  | glob h => exact NeverOk.left _ (neverOk_cfg E rec h)
  | uri h => exact NeverOk.left _ (neverOk_cfg E rec h)

theorem neverOk_locs (E : Env) (rec : Rec) (d : Str) {l : Loc} {ls : List Loc} (h : HasCallL l) (hm : l ∈ ls) :
    NeverOk (resolveLocs E rec d ls) := by
  induction ls with
  | nil => cases hm
  | cons a as ih =>
    rw [resolveLocs]
    rcases List.mem_cons.1 hm with rfl | hm
    · exact NeverOk.left _ (neverOk_loc E rec d h)
    · exact NeverOk.right _ (fun _ => NeverOk.left _ (ih hm))

theorem resolveFunction_returns (E : Env) (rec : Rec) (d : Option Entry) (e : Entry) :
    Returns (resolveFunction E rec d e) (fun e' => ∃ f, e' = { e with function := f }) := by
  unfold resolveFunction
  split
  · split
    · exact Returns.pure ⟨_, rfl⟩
    · split
      · exact Returns.pure ⟨_, rfl⟩
      · exact Returns.panic _
  · exact Returns.bind (Returns.trivial _) (fun _ _ => Returns.pure ⟨_, rfl⟩)

theorem resolveDataDir_returns (E : Env) (rec : Rec) (d : Option Entry) (e : Entry) :
    Returns (resolveDataDir E rec d e) (fun e' => ∃ f dd, e' = { e with function := f, dataDir := dd }) := by
  unfold resolveDataDir
  refine Returns.bind (resolveFunction_returns E rec d e) ?_
  rintro _ ⟨f, rfl⟩
  split
  · split
    · exact Returns.pure ⟨_, _, rfl⟩
    · exact Returns.pure ⟨_, _, rfl⟩
  · exact Returns.bind (Returns.trivial _) (fun _ _ => Returns.pure ⟨_, _, rfl⟩)

theorem resolvePluginDir_returns (E : Env) (rec : Rec) (d : Option Entry) (e : Entry) :
    Returns (resolvePluginDir E rec d e) (fun e' => ∃ dd, e' = { e with pluginDir := dd }) := by
  unfold resolvePluginDir
  exact Returns.bind (Returns.trivial _) (fun _ _ => Returns.pure ⟨_, rfl⟩)

theorem resolveOptions_returns (E : Env) (rec : Rec) (d : Option Entry) (e : Entry) :
    Returns (resolveOptions E rec d e) (fun e' => ∃ os, e' = { e with options := os }) := by
  unfold resolveOptions
  split
  · split
    · exact Returns.pure ⟨_, rfl⟩
    · exact Returns.pure ⟨_, rfl⟩
  · exact Returns.pure ⟨e.options, rfl⟩
  · refine Returns.bind (Returns.trivial _) (fun _ _ => ?_)
    split
    · exact Returns.pure ⟨_, rfl⟩
    · exact Returns.panic _

/-- No relation. -/
def anyRel : Rel := fun _ _ _ => True
/-- Equality. -/
def eqRel : Rel := fun _ a b => a = b

theorem eqRel.coreV : CoreV eqRel where
  pure := fun _ => rfl
  bind := fun h hf => by cases h; have := funext hf; cases this; rfl
  panic := fun _ => rfl
  view := rfl
  withNode := fun _ h => by cases h; rfl
  report := fun _ _ => rfl

theorem anyEq.closed (E : Env) : Closed E anyRel eqRel where
  pure := fun _ => True.intro
  bind := fun _ _ => True.intro
  panic := fun _ => True.intro
  viewBind := fun _ => True.intro
  withNode := fun _ _ => True.intro
  report := fun _ _ => True.intro
  coreC := eqRel.coreV.toCore
  doWithScope := fun _ h => by cases h; rfl
  newProvider := fun _ => rfl
  forConfig := fun _ => True.intro
  forData := fun _ => True.intro
  forLookupOptions := fun _ => True.intro
  doRedacted := fun _ => True.intro
  loadOnce := fun _ _ => True.intro
  emitDig := fun _ _ => True.intro
  emitKey := fun _ _ _ => True.intro
  dataHash := fun _ _ _ _ => True.intro
  loadConfig := fun _ => True.intro
  putConfig := fun _ _ => True.intro
  setLuOpts := fun _ => True.intro
  setStrategy := fun _ => True.intro
  putCache := fun _ _ => True.intro

theorem withLookup_rel (E : Env) (p : Key → Entries → M (Option Value)) (n : Nat) :
    RecRel anyRel eqRel (eval E n) (withLookup E p n) := by
  induction n with
  | zero => exact ⟨fun _ _ => True.intro, fun _ => True.intro, fun _ => rfl, fun _ _ _ _ => True.intro⟩
  | succ n ih =>
    exact ⟨fun _ _ => True.intro, fun _ => True.intro, ((anyEq.closed E).step ih).interpC, fun _ _ _ _ => True.intro⟩

theorem interp_unchanged (E : Env) (rec : Rec) (a : Bool) (v : Value) :
    Returns (interp E rec a v) (fun r => r.2 = false → r.1 = some v) := by
  cases v with
  | str s =>
    rw [interp]
    unfold interpStr
    split
    · exact Returns.bind (Returns.trivial _) (fun _ _ => Returns.pure (fun h => nomatch h))
    · exact Returns.pure (fun _ => rfl)
  | arr es =>
    rw [interp]
    refine Returns.bind (Returns.trivial _) (fun r _ => ?_)
    split
    · exact Returns.pure (fun h => nomatch h)
    · exact Returns.pure (fun _ => rfl)
  | map es =>
    rw [interp]
    refine Returns.bind (Returns.trivial _) (fun r _ => ?_)
    split
    · exact Returns.pure (fun h => nomatch h)
    · exact Returns.pure (fun _ => rfl)
  | _ => simp only [interp]; exact Returns.pure (fun _ => rfl)

theorem interpolate_eq (E : Env) (rec : Rec) (a : Bool) (v : Value) :
    interpolate E rec a v = (do
      let r ← interp E rec a v
      pure r.1) := by
  unfold interpolate
  refine bind_congr_of (interp_unchanged E rec a v) (fun r hr => ?_)
  cases h : r.2 with
  | true => rfl
  | false => rw [hr h]; rfl

theorem interpList_each (E : Env) (rec : Rec) (a : Bool) (es : List Value) :
    (do let r ← interpList E rec a es
        pure r.1) = each (fun v => do
          let r ← interpolate E rec a v
          pure (r.getD .null)) es := by
  induction es with
  | nil => rw [interpList]; rfl
  | cons v vs ih =>
    rw [interpList, each, interpolate_eq, ← ih]
    simp only [M.bind_assoc, M.pure_bind]
    refine bind_congr_of (interp_unchanged E rec a v) (fun r hr => ?_)
    cases h : r.2 with
    | true => rfl
    | false => rw [hr h]; rfl

theorem interpList_unchanged (E : Env) (rec : Rec) (a : Bool) (es : List Value) :
    Returns (interpList E rec a es) (fun r => r.2 = false → r.1 = es) := by
  induction es with
  | nil => rw [interpList]; exact Returns.pure (fun _ => rfl)
  | cons v vs ih =>
    rw [interpList]
    refine Returns.bind (interp_unchanged E rec a v) (fun r hr => Returns.bind ih (fun rs hrs => Returns.pure ?_))
    intro h
    simp only [Bool.or_eq_false_iff] at h
    simp only [h.1, hrs h.2, Bool.false_eq_true, if_false]

theorem interpMap_each (E : Env) (rec : Rec) (a : Bool) (es : List (Value × Value)) (cp : Entries)
    (g : Entries → M (Option Value)) :
    (do let r ← interpMap E rec a cp es
        g r.1) = (do
        let ps ← each (entryOf (interpolate E rec a)) es
        g (Entries.putAll cp ps)) := by
  induction es generalizing cp with
  | nil => rw [interpMap]; rfl
  | cons p es ih =>
    obtain ⟨k, v⟩ := p
    rw [interpMap]
    have hx : ∀ h : Value × Value → M (Option Value), (entryOf (interpolate E rec a) (k, v) >>= h) = (do
        let rk ← interp E rec a k
        let rv ← interp E rec a v
        h (rk.1.getD .null, rv.1.getD .null)) := by
      intro h
      simp only [entryOf, interpolate_eq, M.bind_assoc, M.pure_bind]
    rw [each]
    simp only [M.bind_assoc]
    rw [hx]
    simp only [M.bind_assoc, M.pure_bind]
    refine congrArg _ (funext fun rk => congrArg _ (funext fun rv => ?_))
    have := ih (Entries.put cp (rk.1.getD .null) (rv.1.getD .null))
    rw [this]
    rfl

theorem interpMap_unchanged (E : Env) (rec : Rec) (a : Bool) (es : List (Value × Value)) (cp : Entries) :
    Returns (interpMap E rec a cp es) (fun r => r.2 = false → r.1 = Entries.putAll cp es) := by
  induction es generalizing cp with
  | nil => rw [interpMap]; exact Returns.pure (fun _ => rfl)
  | cons p es ih =>
    obtain ⟨k, v⟩ := p
    rw [interpMap]
    refine Returns.bind (interp_unchanged E rec a k) (fun rk hk => Returns.bind (interp_unchanged E rec a v)
      (fun rv hv => Returns.bind (ih _) (fun rs hrs => Returns.pure ?_)))
    intro h
    simp only [Bool.or_eq_false_iff] at h
    rw [hrs h.2, hk h.1.1, hv h.1.2]
    rfl

theorem interpolate_arr (E : Env) (rec : Rec) (a : Bool) (es : List Value) :
    interpolate E rec a (.arr es) = (do
      let rs ← each (interpolate E rec a) es
      pure (some (.arr (rs.map (·.getD .null))))) := by
  have h1 : ∀ es : List Value, (do
      let rs ← each (fun v => do
          let r ← interpolate E rec a v
          pure (r.getD .null)) es
      pure (some (Value.arr rs))) = (do
      let rs ← each (interpolate E rec a) es
      pure (some (.arr (rs.map (·.getD .null))))) := by
    intro es
    suffices ∀ g : List Value → M (Option Value), (each (fun v => do
          let r ← interpolate E rec a v
          pure (r.getD .null)) es >>= g) =
        (each (interpolate E rec a) es >>= fun rs => g (rs.map (·.getD .null))) from this _
    induction es with
    | nil => intro g; rfl
    | cons v vs ih =>
      intro g
      simp only [each, M.bind_assoc, M.pure_bind]
      refine congrArg _ (funext fun r => ?_)
      rw [ih]
      rfl
  rw [← h1, ← interpList_each, interpolate_eq, interp]
  simp only [M.bind_assoc, M.pure_bind]
  refine bind_congr_of (interpList_unchanged E rec a es) (fun r hr => ?_)
  cases h : r.2 with
  | true => rfl
  | false => rw [hr h]; rfl

theorem interpolate_map (E : Env) (rec : Rec) (a : Bool) (es : Entries) (hw : Value.WF (.map es)) :
    interpolate E rec a (.map es) = (do
      let ps ← each (entryOf (interpolate E rec a)) es
      pure (some (.map (Entries.putAll [] ps)))) := by
  rw [← interpMap_each E rec a es [] (fun m => pure (some (.map m))), interpolate_eq, interp]
  simp only [M.bind_assoc, M.pure_bind]
  refine bind_congr_of (interpMap_unchanged E rec a es []) (fun r hr => ?_)
  cases h : r.2 with
  | true => rfl
  | false => rw [hr h, Entries.putAll_nil_left hw]; rfl

end Hiera
