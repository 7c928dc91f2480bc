/-
  Resolving the entries of a hierarchy.
-/
import Verif.Lemmas.Replaced

set_option autoImplicit false

namespace Hiera
open Spec

theorem interpCfg_plain (E : Env) (rec : Rec) {s : Str} (h : hasMarker s = false) : interpCfg E rec s = pure s := by
  unfold interpCfg interpStr
  rw [h]
  simp only [Bool.false_eq_true, if_false, M.pure_bind]
  rfl

section
variable {E : Env} {n : Nat} {st : St} (ho : st.on = none) (hp : PlainScope st.v.ic.scope.get)
include ho hp

theorem resolveFunction_as {d : Option Entry} {e : Entry} {f : FnKind × Str}
    (h : FunctionAs E st.v.ic.scope.get d e f) : ∃ f1,
    resolveFunction E (eval E (n + 1)) d e st = some (.ok { e with function := some f1 }, st) ∧
    resolveFunction E (eval E (n + 1)) d { e with function := some f1 } st = some (.ok { e with function := some f }, st) := by
  cases h with
  | own h h1 h2 =>
    rename_i k m m' m''
    refine ⟨(k, m'), ?_, ?_⟩
    · unfold resolveFunction
      simp only [h]
      rw [bind_def, interpCfg_replaced E n ho hp h1]
      rfl
    · unfold resolveFunction
      simp only
      rw [bind_def, interpCfg_replaced E n ho hp h2]
      rfl
  | inherited h hd hf h1 =>
    subst hd
    rename_i d' k m m'
    refine ⟨(k, m), ?_, ?_⟩
    · unfold resolveFunction
      simp only [h, hf]
      rfl
    · unfold resolveFunction
      simp only
      rw [bind_def, interpCfg_replaced E n ho hp h1]
      rfl
  | builtIn h hd =>
    subst hd
    refine ⟨_, by unfold resolveFunction; simp only [h]; rfl, ?_⟩
    unfold resolveFunction
    simp only
    rw [interpCfg_plain E _ (by decide), M.pure_bind]
    rfl

theorem resolveDataDir_as {d : Option Entry} {e : Entry} {f f1 : FnKind × Str} {p : Str}
    (hf : resolveFunction E (eval E (n + 1)) d { e with function := some f1 } st = some (.ok { e with function := some f }, st))
    (h : DirAs E st.v.ic.scope.get (·.dataDir) ((E.lookupEnv "HIERA_DATADIR".toList).getD "data".toList) d e p) :
    resolveDataDir E (eval E (n + 1)) d { e with function := some f1 } st =
      some (.ok { e with function := some f, dataDir := p }, st) := by
  unfold resolveDataDir
  rw [bind_def, hf]
  simp only
  cases h with
  | own h1 h2 =>
    rw [if_neg h1, bind_def, interpCfg_replaced E n ho hp h2]
    rfl
  | inherited h1 hd => rw [if_pos h1]; subst hd; rfl
  | builtIn h1 hd => rw [if_pos h1]; subst hd; rfl

theorem resolvePluginDir_as {d : Option Entry} {e : Entry} {f : FnKind × Str} {p q : Str}
    (h : DirAs E st.v.ic.scope.get (·.pluginDir) ((E.lookupEnv "HIERA_PLUGINDIR".toList).getD "plugin".toList) d e p) :
    resolvePluginDir E (eval E (n + 1)) d { e with function := some f, dataDir := q } st =
      some (.ok { e with function := some f, dataDir := q, pluginDir := under e.root p }, st) := by
  have : pluginDirOf E (eval E (n + 1)) d { e with function := some f, dataDir := q } st = some (.ok p, st) := by
    unfold pluginDirOf
    simp only
    cases h with
    | own h1 h2 => rw [if_neg h1, interpCfg_replaced E n ho hp h2]
    | inherited h1 hd => rw [if_pos h1]; subst hd; rfl
    | builtIn h1 hd => rw [if_pos h1]; subst hd; rfl
  unfold resolvePluginDir
  rw [bind_def, this]
  rfl

theorem resolveOptions_as {d : Option Entry} {e e1 : Entry} {os : Entries} (he : e1.options = e.options)
    (h : OptionsAs E st.v.ic.scope.get d e os) :
    resolveOptions E (eval E (n + 1)) d e1 st = some (.ok { e1 with options := some os }, st) := by
  unfold resolveOptions
  rw [he]
  cases h with
  | own h1 h2 =>
    rename_i os0
    rw [h1]
    cases os0 with
    | nil =>
      cases h2 with
      | map _ hm =>
        cases hm
        simp only
        have : { e1 with options := some (Entries.putAll [] []) } = e1 := by
          show { e1 with options := some [] } = e1
          rw [← h1, ← he]
        rw [this]
        rfl
      | other _ _ h3 => exact absurd rfl (h3 _)
    | cons o os0 =>
      simp only
      rw [bind_def, interpolate_replacedV E n false ho hp h2]
      rfl
  | inherited h1 hd h2 => subst hd; rw [h1]; simp only [h2]; rfl
  | none h1 h2 =>
    rw [h1]
    cases d with
    | none => rfl
    | some d => simp only [h2 d rfl]; rfl

theorem resolve_as {d : Option Entry} {e e' : Entry} (h : ResolvedAs E st.v.ic.scope.get d e e') :
    Entry.resolve E (eval E (n + 1)) d e st = some (.ok e', st) := by
  obtain ⟨f, hf, hfa⟩ := h.function
  obtain ⟨f1, h1, h2⟩ := resolveFunction_as (n := n) ho hp hfa
  obtain ⟨p, hp1, hp2⟩ := h.pluginDir
  obtain ⟨os, ho1, ho2⟩ := h.options
  unfold Entry.resolve
  rw [bind_def, h1]
  simp only
  rw [bind_def, resolveDataDir_as ho hp h2 h.dataDir]
  simp only
  rw [bind_def, resolvePluginDir_as ho hp hp1]
  simp only
  rw [bind_def, resolveOptions_as (e := e) (e1 := { e with function := some f, dataDir := e'.dataDir, pluginDir := under e.root p }) ho hp rfl ho2]
  simp only
  obtain ⟨hs1, hs2, hs3⟩ := h.same
  obtain ⟨root', dd', pd', pf', op', fn', nm', lc'⟩ := e'
  simp only at hs1 hs2 hs3 hf hp2 ho1
  subst hs1 hs2 hs3 hf hp2 ho1
  unfold resolveLocations
  simp only
  cases hl : e.locations with
  | none =>
    have := h.noLocations hl
    simp only at this
    subst this
    rfl
  | some ls =>
    obtain ⟨rs, hr1, hr2⟩ := h.locations ls hl
    simp only at hr1
    subst hr1
    simp only
    rw [bind_def]
    have := resolveLocs_locatedAll E n ho hp hr2
    unfold under at this
    simp only at this
    rw [this]
    rfl
end

end Hiera
