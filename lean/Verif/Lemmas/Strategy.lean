/-
  The strategy, options and conversion of a lookup.
-/
import Verif.Lemmas.Lookup
import Verif.Lemmas.Config
import Verif.Lemmas.InterpEval

set_option autoImplicit false

namespace Hiera
open Spec Value

theorem equals_str_iff (s : Str) (k : Value) : equals (.str s) k = true ↔ k = .str s := by
  cases k <;> simp [equals]
  exact eq_comm

theorem getStrategy_named {opts : Entries} {n : Str} {r : Res Strategy} (h : StrategyNamed opts n r) (o : Option Entries)
    (ho : o.getD [] = opts) : getStrategy n o = r := by
  cases h with
  | first => rfl
  | unique => rfl
  | hash => rfl
  | deep => rw [← ho]; rfl
  | unknown h =>
    simp only [List.mem_cons, List.not_mem_nil, or_false, not_or] at h
    obtain ⟨h1, h2, h3, h4⟩ := h
    unfold getStrategy
    rw [if_neg h1, if_neg h2, if_neg h3, if_neg h4]

theorem sublist_same {α : Type} {l l1 l2 : List α} (hn : l.Nodup) (h1 : l1.Sublist l) (h2 : l2.Sublist l)
    (h : ∀ a, a ∈ l1 ↔ a ∈ l2) : l1 = l2 := by
  induction l generalizing l1 l2 with
  | nil => simp at h1 h2; rw [h1, h2]
  | cons a l ih =>
    obtain ⟨ha, hn⟩ := List.nodup_cons.1 hn
    cases h1 with
    | cons _ h1 =>
      have ha1 : a ∉ l1 := fun h => ha (h1.subset h)
      cases h2 with
      | cons _ h2 => exact ih hn h1 h2 h
      | cons_cons _ h2 => exact absurd ((h a).2 (by simp)) ha1
    | cons_cons _ h1 =>
      rename_i l1'
      cases h2 with
      | cons _ h2 => exact absurd (h2.subset ((h a).1 (by simp))) ha
      | cons_cons _ h2 =>
        rename_i l2'
        congr 1
        refine ih hn h1 h2 (fun b => ?_)
        constructor
        · intro hb
          rcases List.mem_cons.1 ((h b).1 (by simp [hb])) with rfl | h'
          · exact absurd (h1.subset hb) ha
          · exact h'
        · intro hb
          rcases List.mem_cons.1 ((h b).2 (by simp [hb])) with rfl | h'
          · exact absurd (h2.subset hb) ha
          · exact h'

theorem nodup_of_wf {m : Entries} (hw : WF (.map m)) : m.Nodup := by
  obtain ⟨h1, h2⟩ := WF_map.1 hw
  unfold UniqueKeys at h2
  refine List.Pairwise.imp_of_mem ?_ h2
  intro a b ha hb h he
  subst he
  rw [equals_refl (h1 a ha).1] at h
  cases h

theorem getStrategy_of {o : Option Value} {r : Res Strategy} (hw : ∀ v, o = some v → v.WF) (h : StrategyOf o r) :
    getStrategy (strategyNamed o).1 (strategyNamed o).2 = r := by
  cases h with
  | none => rfl
  | name h => exact getStrategy_named h none rfl
  | hash h1 h2 h3 h4 =>
    rename_i m n opts
    have hw := hw _ rfl
    have e1 : strategyNamed (some (.map m)) = (n, some (Entries.without m (.str "strategy".toList))) := by
      unfold strategyNamed
      simp only [(getS_iff (WF_map.1 hw).2 _ _).2 h1]
    rw [e1]
    refine getStrategy_named h4 _ ?_
    refine sublist_same (nodup_of_wf hw) List.filter_sublist h3 ?_
    rintro ⟨k, v⟩
    show (k, v) ∈ m.filter _ ↔ _
    rw [List.mem_filter, h2]
    simp only [Bool.not_eq_true', Bool.eq_false_iff, ne_eq, equals_str_iff]
  | nameless h =>
    rename_i m
    have hw := hw _ rfl
    have : ∀ n, Entries.getS m "strategy".toList ≠ some (.str n) := fun n hn => h n ((getS_iff (WF_map.1 hw).2 _ _).1 hn)
    have e1 : strategyNamed (some (.map m)) = ([], none) := by
      unfold strategyNamed
      cases hg : Entries.getS m "strategy".toList with
      | none => simp only [hg]
      | some v => cases v <;> first | exact absurd hg (this _) | simp only [hg]
    rw [e1]
    rfl
  | other h1 h2 =>
    rename_i v
    cases v with
    | str n => exact absurd rfl (h1 n)
    | map m => exact absurd rfl (h2 m)
    | _ => rfl

theorem strategyNamed_total (opts : Entries) (n : Str) : ∃ r, StrategyNamed opts n r := by
  by_cases h : n ∈ ["first".toList, "unique".toList, "hash".toList, "deep".toList]
  · simp only [List.mem_cons, List.not_mem_nil, or_false] at h
    rcases h with rfl | rfl | rfl | rfl
    · exact ⟨_, .first⟩
    · exact ⟨_, .unique⟩
    · exact ⟨_, .hash⟩
    · exact ⟨_, .deep⟩
  · exact ⟨_, .unknown h⟩

theorem strategyOf_total (o : Option Value) : ∃ r, StrategyOf o r := by
  cases o with
  | none => exact ⟨_, .none⟩
  | some v =>
    cases v with
    | str n => obtain ⟨r, h⟩ := strategyNamed_total [] n; exact ⟨r, .name h⟩
    | map m =>
      by_cases h : ∃ n, (Value.str "strategy".toList, Value.str n) ∈ m
      · obtain ⟨n, hn⟩ := h
        obtain ⟨r, h⟩ := strategyNamed_total (Entries.without m (.str "strategy".toList)) n
        refine ⟨r, .hash hn ?_ List.filter_sublist h⟩
        intro k v
        show (k, v) ∈ m.filter _ ↔ _
        rw [List.mem_filter]
        simp only [Bool.not_eq_true', Bool.eq_false_iff, ne_eq, equals_str_iff]
      · exact ⟨_, .nameless (fun n hn => h ⟨n, hn⟩)⟩
    | _ => exact ⟨_, .other (fun _ h => nomatch h) (fun _ h => nomatch h)⟩

theorem mergeOption_total (cli : Option Value) (lo : Option Entries) : ∃ o, MergeOption cli lo o := by
  cases cli with
  | some o => exact ⟨_, .caller rfl⟩
  | none =>
    cases lo with
    | none => exact ⟨_, .none rfl (fun _ h => nomatch h)⟩
    | some m =>
      by_cases h : Has m "merge".toList
      · obtain ⟨v, hv⟩ := h; exact ⟨_, .options rfl rfl hv⟩
      · exact ⟨_, .none rfl (fun m' hm => by cases hm; exact h)⟩

theorem mergeOption_off {cli : Option Value} {lo : Option Entries} (hw : ∀ m, lo = some m → UniqueKeys m) {o : Option Value}
    (h : MergeOption cli lo o) {st : St} (ho : st.on = none) : mergeOption cli lo st = some (.ok o, st) := by
  unfold mergeOption
  cases h with
  | caller h => subst h; simp only; rw [bind_ok (Quiet.off_report ho)]; rfl
  | options h1 h2 h3 =>
    subst h1 h2
    simp only [(getS_iff (hw _ rfl) _ _).2 h3]
    rw [bind_ok (Quiet.off_report ho)]; rfl
  | none h1 h2 =>
    subst h1
    cases lo with
    | none => rfl
    | some m => simp only [(getS_none (hw _ rfl) _).2 (h2 m rfl)]; rfl

theorem setMergeStrategy_off {cli : Option Value} {lo : Option Entries} (hw : ∀ m, lo = some m → WF (.map m))
    (hc : ∀ v, cli = some v → v.WF) {o : Option Value} {r : Res Strategy}
    (h : MergeOption cli lo o) (hr : StrategyOf o r) {st : St} (ho : st.on = none) :
    setMergeStrategy cli lo st = match r with
      | .ok s => some (.ok (), setIc st { st.v.ic with luOpts := lo, strategy := some s })
      | .panic e => some (.panic e, setIc st { st.v.ic with luOpts := lo }) := by
  have hwo : ∀ v, o = some v → v.WF := by
    intro v hv
    cases h with
    | caller h => cases hv; exact hc _ h
    | options h1 h2 h3 => cases hv; exact ((WF_map.1 (hw _ h2)).1 _ h3).2
    | none => cases hv
  unfold setMergeStrategy
  rw [bind_ok (mergeOption_off (fun m hm => (WF_map.1 (hw m hm)).2) h ho), getStrategy_of hwo hr]
  cases r with
  | ok s => rfl
  | panic e => rfl

theorem extractConversion_of {E : Env} {lo : Option Entries} (hw : ∀ m, lo = some m → UniqueKeys m)
    {c : Option (Nat × Option (List Value))} (h : ConvertTo E lo c) : extractConversion E lo = .ok c := by
  unfold extractConversion
  cases h with
  | noOptions => rfl
  | absent h => simp only [(getS_none (hw _ rfl) _).2 h]
  | empty h => simp only [(getS_iff (hw _ rfl) _ _).2 h]
  | type h h2 => simp only [(getS_iff (hw _ rfl) _ _).2 h, h2]; rfl
  | typeIn h h2 => simp only [(getS_iff (hw _ rfl) _ _).2 h, h2]; rfl
  | args h h2 => simp only [(getS_iff (hw _ rfl) _ _).2 h, h2]; rfl

theorem convert_of {E : Env} {c : Option (Nat × Option (List Value))} {v : Option Value} {r : Res (Option Value)}
    (h : Converted E c v r) : convert E v c = r := by
  unfold convert
  cases h with
  | nothing => rfl
  | asIs => rfl
  | made h => simp only [h]; rfl
  | failed h => simp only [h]; rfl

theorem converted_total (E : Env) (c : Option (Nat × Option (List Value))) (v : Option Value) : ∃ r, Converted E c v r := by
  cases v with
  | none => exact ⟨_, .nothing⟩
  | some v =>
    rcases c with _ | ⟨t, as⟩
    · exact ⟨_, .asIs⟩
    · cases h : E.newValue t v as with
      | ok w => exact ⟨_, .made h⟩
      | panic e => exact ⟨_, .failed h⟩

theorem maybeRedacted_of (E : Env) (c : Option (Nat × Option (List Value))) {f : M (Option Value)} {u : St}
    {x : Option (Res (Option Value) × St)}
    (h : f (setIc u { u.v.ic with redacted := u.v.ic.redacted || sensitiveTo E c }) = x) :
    (x = none → maybeRedacted E c f u = none) ∧
    ∀ r t, x = some (r, t) → ∃ t', maybeRedacted E c f u = some (r, t') ∧ ∀ ic, setIc t' ic = setIc t ic := by
  have same : ∀ (b : Bool), b = u.v.ic.redacted → setIc u { u.v.ic with redacted := b } = u := by
    rintro _ rfl; rfl
  unfold maybeRedacted
  unfold sensitiveTo at h
  rcases c with _ | ⟨t, as⟩
  · simp only [Bool.or_false, same _ rfl] at h
    subst h
    exact ⟨fun h => h, fun r t h => ⟨t, h, fun _ => rfl⟩⟩
  · simp only at h ⊢
    by_cases hs : E.isSensitive t = true
    · rw [if_pos hs]
      unfold doRedacted
      by_cases hr : u.v.ic.redacted = true
      · rw [if_pos hr]
        simp only [hr, Bool.true_or, same true hr.symm] at h
        subst h
        exact ⟨fun h => h, fun r t h => ⟨t, h, fun _ => rfl⟩⟩
      · rw [if_neg hr]
        simp only [Bool.eq_false_iff.2 hr, Bool.false_or, hs] at h
        have h' : f { u with v := { u.v with ic := { u.v.ic with redacted := true } } } = x := h
        rw [h']
        refine ⟨fun h => by rw [h], fun r t h => ?_⟩
        rw [h]
        exact ⟨_, rfl, fun _ => rfl⟩
    · rw [if_neg hs]
      simp only [Bool.eq_false_iff.2 hs, Bool.or_false, same _ rfl] at h
      subst h
      exact ⟨fun h => h, fun r t h => ⟨t, h, fun _ => rfl⟩⟩

/-- `ForData` at the top level, without explainer. -/
theorem forData_top {α : Type} {m : M α} {u : St} (hm : u.v.ic.mode = .top) (ho : u.on = none) :
    forData m u = match m (setIc u { u.v.ic with mode := .data }) with
      | none => none
      | some (r, t) => some (r, { setIc t u.v.ic with on := none }) := by
  obtain ⟨v, on, tr⟩ := u
  simp only at ho hm
  subst ho
  unfold forData
  rw [bind_ok (show view ⟨v, none, tr⟩ = some (.ok v, ⟨v, none, tr⟩) from rfl), if_neg (by rw [hm]; decide)]
  rfl

/-- The part of `ConfigLookupKeyAt` and `MuxLookupKey` that asks for the value of a key. -/
theorem asking_top {E : Env} {ask : Strategy → M (Option Value)} {k : Key} {cli : Option Value} {lo : Option Entries}
    (hw : ∀ m, lo = some m → WF (.map m)) (hc : ∀ v, cli = some v → v.WF) {o : Option Value} {s : Strategy}
    (h : MergeOption cli lo o) (hr : StrategyOf o (.ok s)) {c : Option (Nat × Option (List Value))} (hconv : ConvertTo E lo c)
    {u : St} (hm : u.v.ic.mode = .top) (ho : u.on = none) :
    forData (withNode (.new .lookup k.source) (do
      setMergeStrategy cli lo
      lookupAndConvert E (do
        let st ← currentStrategy
        ask st))) u = match ask s (asking u lo s (sensitiveTo E c)) with
      | none => none
      | some (.ok v, t) => some (convert E v c, { setIc t u.v.ic with on := none })
      | some (.panic e, t) => some (.panic e, { setIc t u.v.ic with on := none }) := by
  rw [forData_top hm ho]
  have ho' : (setIc u { u.v.ic with mode := .data }).on = none := ho
  rw [Quiet.off_withNode ho', bind_ok (setMergeStrategy_off hw hc h hr ho')]
  unfold lookupAndConvert
  have hv : ∀ s : St, view s = some (.ok s.v, s) := fun _ => rfl
  rw [bind_ok (hv _)]
  have hx : extractConversion E (setIc (setIc u { u.v.ic with mode := .data })
      { (setIc u { u.v.ic with mode := .data }).v.ic with luOpts := lo, strategy := some s }).v.ic.luOpts = .ok c :=
    extractConversion_of (fun m hm => (WF_map.1 (hw m hm)).2) hconv
  rw [hx, M.lift_ok_bind, bind_def]
  have e : (do let st ← currentStrategy; ask st : M (Option Value)) (asking u lo s (sensitiveTo E c)) =
      ask s (asking u lo s (sensitiveTo E c)) := by
    have : currentStrategy (asking u lo s (sensitiveTo E c)) = some (.ok s, asking u lo s (sensitiveTo E c)) := rfl
    rw [bind_ok this]
  obtain ⟨h1, h2⟩ := maybeRedacted_of E c (u := setIc (setIc u { u.v.ic with mode := .data })
      { (setIc u { u.v.ic with mode := .data }).v.ic with luOpts := lo, strategy := some s }) e
  rcases hask : ask s (asking u lo s (sensitiveTo E c)) with _ | ⟨v | e, t⟩
  · rw [h1 hask]
  · obtain ⟨t', h3, h4⟩ := h2 _ _ hask
    rw [h3]
    simp only [lift, h4]
  · obtain ⟨t', h3, h4⟩ := h2 _ _ hask
    rw [h3]
    simp only [h4]

end Hiera
