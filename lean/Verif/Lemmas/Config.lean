/-
  Lemmas about reading configurations.
-/
import Verif.Spec.Config
import Verif.Lemmas.Map

set_option autoImplicit false
set_option linter.unusedSimpArgs false

namespace Hiera
open Value Spec

/-- All keys are strings. -/
def StrKeys (es : Entries) : Prop := ∀ e ∈ es, ∃ k, e.1 = .str k

/-- Strings render as themselves. -/
def CfgEnv.Plain (E : CfgEnv) : Prop := ∀ s, E.toStr (.str s) = s

theorem has_cons {k : Str} {v : Value} {es : Entries} {x : Str} :
    Has ((.str k, v) :: es) x ↔ x = k ∨ Has es x := by
  constructor
  · rintro ⟨w, h⟩
    rcases List.mem_cons.1 h with h | h
    · cases h; exact .inl rfl
    · exact .inr ⟨w, h⟩
  · rintro (rfl | ⟨w, h⟩)
    · exact ⟨v, List.mem_cons_self⟩
    · exact ⟨w, List.mem_cons_of_mem _ h⟩

theorem has_nil (x : Str) : ¬Has [] x := by rintro ⟨_, h⟩; cases h

theorem not_has_of_unique {k : Str} {v : Value} {es : Entries} (hu : UniqueKeys ((.str k, v) :: es)) : ¬Has es k := by
  rintro ⟨w, h⟩
  have := List.rel_of_pairwise_cons hu h
  simp at this

theorem unique_tail {e : Value × Value} {es : Entries} (hu : UniqueKeys (e :: es)) : UniqueKeys es :=
  List.Pairwise.of_cons hu

theorem strKeys_tail {e : Value × Value} {es : Entries} (hu : StrKeys (e :: es)) : StrKeys es :=
  fun x h => hu x (List.mem_cons_of_mem _ h)

theorem twoOf_cons {ks : List Str} {k : Str} {v : Value} {es : Entries} (hn : ¬Has es k) :
    TwoOf ks ((.str k, v) :: es) ↔ TwoOf ks es ∨ (k ∈ ks ∧ ∃ k' ∈ ks, Has es k') := by
  constructor
  · rintro ⟨a, ha, b, hb, hne, h1, h2⟩
    rw [has_cons] at h1 h2
    rcases h1 with rfl | h1 <;> rcases h2 with rfl | h2
    · exact absurd rfl hne
    · exact .inr ⟨ha, b, hb, h2⟩
    · exact .inr ⟨hb, a, ha, h1⟩
    · exact .inl ⟨a, ha, b, hb, hne, h1, h2⟩
  · rintro (⟨a, ha, b, hb, hne, h1, h2⟩ | ⟨hk, b, hb, h⟩)
    · exact ⟨a, ha, b, hb, hne, has_cons.2 (.inr h1), has_cons.2 (.inr h2)⟩
    · refine ⟨k, hk, b, hb, ?_, has_cons.2 (.inl rfl), has_cons.2 (.inr h)⟩
      rintro rfl
      exact hn h

theorem twoOf_nil (ks : List Str) : ¬TwoOf ks [] := by
  rintro ⟨_, _, _, _, _, h, _⟩
  exact has_nil _ h

theorem getS_iff {es : Entries} (hu : UniqueKeys es) (k : Str) (v : Value) :
    Entries.getS es k = some v ↔ (Value.str k, v) ∈ es := by
  unfold Entries.getS
  induction es with
  | nil => simp [Entries.get_nil]
  | cons e es ih =>
    obtain ⟨k', v'⟩ := e
    rw [Entries.get_cons]
    have hd : ∀ f ∈ es, equals k' f.1 = false := fun f hf => List.rel_of_pairwise_cons hu hf
    by_cases h : equals (.str k) k' = true
    · have hk : k' = .str k := by
        cases k' <;> simp [equals] at h
        rw [h]
      subst hk
      simp only [h, if_true]
      constructor
      · intro h; cases h; exact List.mem_cons_self
      · intro h
        rcases List.mem_cons.1 h with h | h
        · cases h; rfl
        · exact absurd (hd _ h) (by simp)
    · rw [if_neg h, ih (unique_tail hu)]
      constructor
      · exact List.mem_cons_of_mem _
      · intro h'
        rcases List.mem_cons.1 h' with h' | h'
        · cases h'; simp at h
        · exact h'

theorem getS_none {es : Entries} (hu : UniqueKeys es) (k : Str) : Entries.getS es k = none ↔ ¬Has es k := by
  constructor
  · rintro h ⟨v, hv⟩
    rw [(getS_iff hu k v).2 hv] at h
    cases h
  · intro h
    cases hg : Entries.getS es k with
    | none => rfl
    | some v => exact absurd ⟨v, (getS_iff hu k v).1 hg⟩ h

theorem functionKey_iff (k : Str) : (functionKey k).isSome ↔ k ∈ functionNames := by
  unfold functionKey functionNames
  simp only [List.mem_cons, List.not_mem_nil, or_false]
  split
  · rename_i h; exact ⟨fun _ => .inl h, fun _ => rfl⟩
  · rename_i h1
    split
    · rename_i h; exact ⟨fun _ => .inr (.inl h), fun _ => rfl⟩
    · rename_i h2
      split
      · rename_i h; exact ⟨fun _ => .inr (.inr h), fun _ => rfl⟩
      · rename_i h3
        exact ⟨fun h => (nomatch h), fun h => (by rcases h with h | h | h <;> contradiction)⟩

/-! ### `initialize` -/

/-- What the schema guarantees about a map that describes an entry. -/
structure EntryShape (es : Entries) : Prop where
  keys : StrKeys es
  unique : UniqueKeys es
  options : ∀ v, (Value.str "options".toList, v) ∈ es → ∃ os, v = .map os ∧ StrKeys os
  text : ∀ k ∈ functionNames ++ ["datadir".toList, "plugindir".toList, "pluginfile".toList], ∀ v, (Value.str k, v) ∈ es →
    ∃ s, v = .str s
  locs : ∀ k ∈ locationNames, ∀ v, (Value.str k, v) ∈ es → ∃ ls, LocsOf k v ls

theorem EntryShape.tail {e : Value × Value} {es : Entries} (h : EntryShape (e :: es)) : EntryShape es :=
  ⟨strKeys_tail h.keys, unique_tail h.unique, fun v hv => h.options v (List.mem_cons_of_mem _ hv),
    fun k hk v hv => h.text k hk v (List.mem_cons_of_mem _ hv), fun k hk v hv => h.locs k hk v (List.mem_cons_of_mem _ hv)⟩

theorem checkOptionKeys_iff {E : CfgEnv} (hE : E.Plain) (name : Str) {os : Entries} (hs : StrKeys os) :
    checkOptionKeys E name os = .ok () ↔ ¬(Has os "path".toList ∨ Has os "uri".toList) := by
  induction os with
  | nil => simp [checkOptionKeys, has_nil]
  | cons e es ih =>
    obtain ⟨k, v⟩ := e
    obtain ⟨s, hk⟩ := hs _ List.mem_cons_self
    simp only at hk
    subst hk
    rw [checkOptionKeys, hE s, has_cons, has_cons]
    by_cases h : s ∈ reservedOptionKeys
    · rw [if_pos h]
      simp only [reservedOptionKeys, List.mem_cons, List.not_mem_nil, or_false] at h
      rcases h with rfl | rfl <;> simp
    · rw [if_neg h, ih (strKeys_tail hs)]
      simp only [reservedOptionKeys, List.mem_cons, List.not_mem_nil, or_false, not_or] at h
      constructor
      · intro hh; simp only [not_or] at hh ⊢; exact ⟨⟨fun h' => h.1 h'.symm, hh.1⟩, ⟨fun h' => h.2 h'.symm, hh.2⟩⟩
      · intro hh; simp only [not_or] at hh ⊢; exact ⟨hh.1.2, hh.2.2⟩

theorem checkOptionKeys_unit {E : CfgEnv} {name : Str} {os : Entries} : 
    checkOptionKeys E name os = .ok () ∨ ∃ e, checkOptionKeys E name os = .panic e := by
  cases checkOptionKeys E name os with
  | ok u => exact .inl rfl
  | panic e => exact .inr ⟨e, rfl⟩

theorem reserved_cons {k : Str} {v : Value} {es : Entries} : ReservedOption ((.str k, v) :: es) ↔
    (k = "options".toList ∧ ∃ os, v = .map os ∧ (Has os "path".toList ∨ Has os "uri".toList)) ∨ ReservedOption es := by
  constructor
  · rintro ⟨os, hm, hr⟩
    rcases List.mem_cons.1 hm with h | h
    · cases h; exact .inl ⟨rfl, os, rfl, hr⟩
    · exact .inr ⟨os, h, hr⟩
  · rintro (⟨rfl, os, rfl, hr⟩ | ⟨os, hm, hr⟩)
    · exact ⟨os, List.mem_cons_self, hr⟩
    · exact ⟨os, List.mem_cons_of_mem _ hm, hr⟩

theorem initialize_options {E : CfgEnv} {name : Str} {e : Entry} {k : Value} {os es : Entries}
    (h : E.toStr k = "options".toList) : Entry.initialize E name e ((k, .map os) :: es) =
      (checkOptionKeys E name os).bind (fun _ => Entry.initialize E name { e with options := some os } es) := by
  rw [Entry.initialize, if_pos h]

theorem initialize_other {E : CfgEnv} {name : Str} {e : Entry} {k v : Value} {es : Entries}
    (h : E.toStr k ≠ "options".toList) : Entry.initialize E name e ((k, v) :: es) =
      match functionKey (E.toStr k) with
      | some fk => if e.function.isSome then .panic (.manyFunctions name)
        else Entry.initialize E name { e with function := some (fk, E.toStr v) } es
      | none => Entry.initialize E name e es := by
  cases v <;> simp only [Entry.initialize, if_neg h] <;> rfl

theorem options_not_function : "options".toList ∉ functionNames := by decide

theorem initialize_ok_iff {E : CfgEnv} (hE : E.Plain) (name : Str) {es : Entries} (hs : EntryShape es) (e : Entry) :
    (∃ e', Entry.initialize E name e es = .ok e') ↔
      ¬TwoOf functionNames es ∧ ¬(e.function.isSome ∧ ∃ k ∈ functionNames, Has es k) ∧ ¬ReservedOption es := by
  induction es generalizing e with
  | nil =>
    simp only [Entry.initialize, Res.ok.injEq, exists_eq', true_iff]
    exact ⟨twoOf_nil _, fun h => by obtain ⟨_, _, _, h⟩ := h; exact has_nil _ h, fun ⟨_, h, _⟩ => by cases h⟩
  | cons x es ih =>
    obtain ⟨k, v⟩ := x
    obtain ⟨s, hk⟩ := hs.keys _ List.mem_cons_self
    simp only at hk
    subst hk
    have hn := not_has_of_unique hs.unique
    rw [twoOf_cons hn, reserved_cons]
    by_cases ho : s = "options".toList
    · obtain ⟨os, rfl, hos⟩ := hs.options v (by rw [ho]; exact List.mem_cons_self)
      have hc := checkOptionKeys_iff hE name hos
      rw [initialize_options ((hE s).trans ho)]
      simp only [ho]
      rcases @checkOptionKeys_unit E name os with h | ⟨er, h⟩
      · rw [h]
        have hnr := hc.1 h
        show (∃ e', Entry.initialize E name _ es = .ok e') ↔ _
        rw [ih hs.tail]
        constructor
        · rintro ⟨h1, h2, h3⟩
          refine ⟨fun h => h.elim h1 (fun h => options_not_function h.1), fun h => h2 ?_, fun h => h.elim ?_ h3⟩
          · obtain ⟨hf, k, hk, hh⟩ := h
            rcases has_cons.1 hh with rfl | hh
            · exact absurd hk options_not_function
            · exact ⟨hf, k, hk, hh⟩
          · rintro ⟨_, os', hos', hr⟩
            cases hos'
            exact hnr hr
        · rintro ⟨h1, h2, h3⟩
          exact ⟨fun h => h1 (.inl h), fun ⟨hf, k, hk, hh⟩ => h2 ⟨hf, k, hk, has_cons.2 (.inr hh)⟩, fun h => h3 (.inr h)⟩
      · rw [h]
        have hr : Has os "path".toList ∨ Has os "uri".toList := by
          by_cases hr : Has os "path".toList ∨ Has os "uri".toList
          · exact hr
          · rw [hc.2 hr] at h; cases h
        constructor
        · rintro ⟨e', he⟩; cases he
        · rintro ⟨_, _, h3⟩; exact absurd (.inl ⟨trivial, os, rfl, hr⟩) h3
    · rw [initialize_other (by rw [hE s]; exact ho), hE s]
      simp only [ho, if_false, false_and, false_or]
      cases hf : functionKey s with
      | some fk =>
        have hmem : s ∈ functionNames := (functionKey_iff s).1 (by rw [hf]; rfl)
        simp only
        by_cases he : e.function.isSome = true
        · rw [if_pos he]
          constructor
          · rintro ⟨e', h⟩; cases h
          · rintro ⟨_, h2, _⟩; exact absurd ⟨he, s, hmem, has_cons.2 (.inl rfl)⟩ h2
        · rw [if_neg he, ih hs.tail]
          simp only [Option.isSome_some, true_and]
          constructor
          · rintro ⟨h1, h2, h3⟩
            exact ⟨fun h => h.elim h1 (fun h => h2 h.2), fun h => he h.1, h3⟩
          · rintro ⟨h1, h2, h3⟩
            exact ⟨fun h => h1 (.inl h), fun h => h1 (.inr ⟨hmem, h⟩), h3⟩
      | none =>
        have hmem : s ∉ functionNames := fun h => by
          have := (functionKey_iff s).2 h
          rw [hf] at this
          cases this
        simp only
        rw [ih hs.tail]
        constructor
        · rintro ⟨h1, h2, h3⟩
          refine ⟨fun h => h.elim h1 (fun h => hmem h.1), fun h => h2 ?_, h3⟩
          obtain ⟨hf, k, hk, hh⟩ := h
          rcases has_cons.1 hh with rfl | hh
          · exact absurd hk hmem
          · exact ⟨hf, k, hk, hh⟩
        · rintro ⟨h1, h2, h3⟩
          exact ⟨fun h => h1 (.inl h), fun ⟨hf, k, hk, hh⟩ => h2 ⟨hf, k, hk, has_cons.2 (.inr hh)⟩, h3⟩

/-- The settings that `initialize` makes. -/
structure InitSet (e : Entry) (es : Entries) (e' : Entry) : Prop where
  rest : e' = { e with options := e'.options, function := e'.function }
  options : Setting es "options".toList (fun v x => ∃ os, v = .map os ∧ x = some os) e.options e'.options
  function : ∀ k fk n, functionKey k = some fk → (Value.str k, Value.str n) ∈ es → e'.function = some (fk, n)
  noFunction : (∀ k ∈ functionNames, ¬Has es k) → e'.function = e.function

theorem initialize_set {E : CfgEnv} (hE : E.Plain) (name : Str) {es : Entries} (hs : EntryShape es) (e e' : Entry)
    (h : Entry.initialize E name e es = .ok e') : InitSet e es e' := by
  induction es generalizing e with
  | nil =>
    rw [Entry.initialize] at h
    cases h
    exact ⟨rfl, ⟨fun v h => (nomatch h), fun _ => rfl⟩, fun _ _ _ _ h => (nomatch h), fun _ => rfl⟩
  | cons x es ih =>
    obtain ⟨k, v⟩ := x
    obtain ⟨s, hk⟩ := hs.keys _ List.mem_cons_self
    simp only at hk
    subst hk
    have hn := not_has_of_unique hs.unique
    have hok := (initialize_ok_iff hE name hs e).1 ⟨e', h⟩
    by_cases ho : s = "options".toList
    · obtain ⟨os, rfl, hos⟩ := hs.options v (by rw [ho]; exact List.mem_cons_self)
      rw [initialize_options ((hE s).trans ho)] at h
      subst ho
      rcases @checkOptionKeys_unit E name os with hc | ⟨er, hc⟩ <;> rw [hc] at h
      · have hi := ih hs.tail _ h
        refine ⟨by rw [hi.rest], ⟨fun w hw => ?_, fun hh => absurd (has_cons.2 (.inl rfl)) hh⟩, ?_, fun hh => ?_⟩
        · have hw' : w = .map os := by
            rcases List.mem_cons.1 hw with hw | hw
            · cases hw; rfl
            · exact absurd ⟨w, hw⟩ hn
          exact ⟨os, hw', hi.options.2 hn⟩
        · intro k fk n hfk hm
          rcases List.mem_cons.1 hm with hm | hm
          · cases hm
          · exact hi.function k fk n hfk hm
        · rw [hi.noFunction (fun k hk hh' => hh k hk (has_cons.2 (.inr hh')))]
      · cases h
    · rw [initialize_other (by rw [hE s]; exact ho), hE s] at h
      have hopt : ∀ {e'' : Entry}, Setting es "options".toList (fun v x => ∃ os, v = .map os ∧ x = some os) e.options e''.options →
          Setting ((.str s, v) :: es) "options".toList (fun v x => ∃ os, v = .map os ∧ x = some os) e.options e''.options := by
        intro e'' hh
        refine ⟨fun w hw => ?_, fun hh' => hh.2 (fun h => hh' (has_cons.2 (.inr h)))⟩
        rcases List.mem_cons.1 hw with hw | hw
        · cases hw; exact absurd rfl ho
        · exact hh.1 w hw
      cases hf : functionKey s with
      | some fk =>
        rw [hf] at h
        simp only at h
        have hmem : s ∈ functionNames := (functionKey_iff s).1 (by rw [hf]; rfl)
        by_cases he : e.function.isSome = true
        · rw [if_pos he] at h; cases h
        · rw [if_neg he] at h
          have hi := ih hs.tail _ h
          obtain ⟨n0, hv⟩ := hs.text s (List.mem_append_left _ hmem) v List.mem_cons_self
          subst hv
          have htail : ∀ k ∈ functionNames, ¬Has es k := fun k hk hh =>
            hok.1 ((twoOf_cons hn).2 (.inr ⟨hmem, k, hk, hh⟩))
          have hfun := hi.noFunction htail
          rw [hE n0] at hfun
          refine ⟨by rw [hi.rest], hopt hi.options, ?_, fun hh => absurd (has_cons.2 (.inl rfl)) (hh s hmem)⟩
          intro k fk' n hfk hm
          rcases List.mem_cons.1 hm with hm | hm
          · cases hm
            rw [hf] at hfk
            cases hfk
            exact hfun
          · have := (functionKey_iff k).1 (by rw [hfk]; rfl)
            exact absurd ⟨_, hm⟩ (htail k this)
      | none =>
        rw [hf] at h
        simp only at h
        have hi := ih hs.tail _ h
        refine ⟨hi.rest, hopt hi.options, ?_, fun hh => hi.noFunction (fun k hk hh' => hh k hk (has_cons.2 (.inr hh')))⟩
        intro k fk n hfk hm
        rcases List.mem_cons.1 hm with hm | hm
        · cases hm; rw [hf] at hfk; cases hfk
        · exact hi.function k fk n hfk hm

/-! ### `createEntry` -/

theorem createLocations_eq {E : CfgEnv} (hE : E.Plain) {k : Str} {v : Value} {ls : List Loc} (h : LocsOf k v ls) :
    createLocations E k v = .ok ls := by
  have hm : ∀ {α : Type} (f : Str → α) (ss : List Str), (ss.map Value.str).map (fun p => f (E.toStr p)) = ss.map f := by
    intro α f ss
    rw [List.map_map]
    exact List.map_congr_left (fun s _ => by simp [hE s])
  have hx : ∀ a b : String, a.toList = b.toList ↔ a = b := fun a b => String.toList_inj
  unfold createLocations
  cases h <;> simp [hx, hE _, hm]

theorem locsOf_unique {k : Str} {v : Value} {ls ls' : List Loc} (h : LocsOf k v ls) (h' : LocsOf k v ls') : ls = ls' := by
  have hE : CfgEnv.Plain ⟨fun v => match v with | .str s => s | _ => [], fun _ => none⟩ := fun _ => rfl
  have := (createLocations_eq hE h).symm.trans (createLocations_eq hE h')
  cases this
  rfl

theorem locationKeys_eq : locationKeys = locationNames := rfl

theorem createEntryLoop_ok_iff {E : CfgEnv} (hE : E.Plain) (name : Str) {es : Entries} (hs : EntryShape es) (e : Entry) :
    (∃ e', createEntryLoop E name e es = .ok e') ↔
      ¬TwoOf locationNames es ∧ ¬(e.locations.isSome ∧ ∃ k ∈ locationNames, Has es k) := by
  induction es generalizing e with
  | nil =>
    simp only [createEntryLoop, Res.ok.injEq, exists_eq', true_iff]
    exact ⟨twoOf_nil _, fun h => by obtain ⟨_, _, _, h⟩ := h; exact has_nil _ h⟩
  | cons x es ih =>
    obtain ⟨k, v⟩ := x
    obtain ⟨s, hk⟩ := hs.keys _ List.mem_cons_self
    simp only at hk
    subst hk
    have hn := not_has_of_unique hs.unique
    have other : s ∉ locationNames → ∀ e2 : Entry, e2.locations = e.locations →
        ((∃ e', createEntryLoop E name e2 es = .ok e') ↔ ¬TwoOf locationNames ((.str s, v) :: es) ∧
          ¬(e.locations.isSome ∧ ∃ k ∈ locationNames, Has ((.str s, v) :: es) k)) := by
      intro hmem e2 he2
      rw [ih hs.tail, he2, twoOf_cons hn]
      constructor
      · rintro ⟨h1, h2⟩
        refine ⟨fun h => h.elim h1 (fun h => hmem h.1), fun ⟨hf, k, hk, hh⟩ => h2 ?_⟩
        rcases has_cons.1 hh with rfl | hh
        · exact absurd hk hmem
        · exact ⟨hf, k, hk, hh⟩
      · rintro ⟨h1, h2⟩
        exact ⟨fun h => h1 (.inl h), fun ⟨hf, k, hk, hh⟩ => h2 ⟨hf, k, hk, has_cons.2 (.inr hh)⟩⟩
    rw [createEntryLoop, hE s]
    by_cases h1 : s = "datadir".toList
    · simp only [h1, if_true]; rw [← h1]; exact other (by rw [h1]; decide) _ rfl
    by_cases h2 : s = "plugindir".toList
    · simp only [h1, h2, if_true, if_false]; rw [← h2, if_neg h1]; exact other (by rw [h2]; decide) _ rfl
    by_cases h3 : s = "pluginfile".toList
    · simp only [h1, h2, h3, if_true, if_false]; rw [← h3, if_neg h1, if_neg h2]; exact other (by rw [h3]; decide) _ rfl
    simp only [h1, h2, h3, if_false]
    rw [locationKeys_eq]
    by_cases hmem : s ∈ locationNames
    · rw [if_pos hmem]
      by_cases he : e.locations.isSome = true
      · rw [if_pos he]
        constructor
        · rintro ⟨e', h⟩; cases h
        · rintro ⟨_, h2⟩; exact absurd ⟨he, s, hmem, has_cons.2 (.inl rfl)⟩ h2
      · rw [if_neg he]
        obtain ⟨ls, hls⟩ := hs.locs s hmem v List.mem_cons_self
        rw [createLocations_eq hE hls]
        show (∃ e', createEntryLoop E name _ es = .ok e') ↔ _
        rw [ih hs.tail, twoOf_cons hn]
        simp only [Option.isSome_some, true_and]
        constructor
        · rintro ⟨h1, h2⟩
          exact ⟨fun h => h.elim h1 (fun h => h2 h.2), fun h => he h.1⟩
        · rintro ⟨h1, h2⟩
          exact ⟨fun h => h1 (.inl h), fun h => h1 (.inr ⟨hmem, h⟩)⟩
    · rw [if_neg hmem]
      exact other hmem e rfl

/-- The settings that the loop of `createEntry` makes. -/
structure LoopSet (e : Entry) (es : Entries) (e' : Entry) : Prop where
  rest : e' = { e with dataDir := e'.dataDir, pluginDir := e'.pluginDir, pluginFile := e'.pluginFile,
                       locations := e'.locations }
  dataDir : Setting es "datadir".toList (fun v x => v = .str x) e.dataDir e'.dataDir
  pluginDir : Setting es "plugindir".toList (fun v x => v = .str x) e.pluginDir e'.pluginDir
  pluginFile : Setting es "pluginfile".toList (fun v x => v = .str x) e.pluginFile e'.pluginFile
  locations : ∀ k ∈ locationNames, ∀ v, (Value.str k, v) ∈ es → ∃ ls, LocsOf k v ls ∧ e'.locations = some ls
  noLocations : (∀ k ∈ locationNames, ¬Has es k) → e'.locations = e.locations

theorem setting_skip {α : Type} {s k : Str} {v : Value} {es : Entries} {of : Value → α → Prop} {a x : α} (hne : s ≠ k)
    (h : Setting es k of a x) : Setting ((.str s, v) :: es) k of a x := by
  refine ⟨fun w hw => ?_, fun hh => h.2 (fun h' => hh (has_cons.2 (.inr h')))⟩
  rcases List.mem_cons.1 hw with hw | hw
  · cases hw; exact absurd rfl hne
  · exact h.1 w hw

theorem setting_here {α : Type} {k : Str} {v : Value} {es : Entries} {of : Value → α → Prop} {a a' x : α} (hn : ¬Has es k)
    (h : Setting es k of a' x) (hv : of v a') : Setting ((.str k, v) :: es) k of a x := by
  refine ⟨fun w hw => ?_, fun hh => absurd (has_cons.2 (.inl rfl)) hh⟩
  rcases List.mem_cons.1 hw with hw | hw
  · cases hw; rw [h.2 hn]; exact hv
  · exact absurd ⟨w, hw⟩ hn

theorem createEntryLoop_set {E : CfgEnv} (hE : E.Plain) (name : Str) {es : Entries} (hs : EntryShape es) (e e' : Entry)
    (h : createEntryLoop E name e es = .ok e') : LoopSet e es e' := by
  induction es generalizing e with
  | nil =>
    rw [createEntryLoop] at h
    cases h
    exact ⟨rfl, ⟨fun _ h => (nomatch h), fun _ => rfl⟩, ⟨fun _ h => (nomatch h), fun _ => rfl⟩,
      ⟨fun _ h => (nomatch h), fun _ => rfl⟩, fun _ _ _ h => (nomatch h), fun _ => rfl⟩
  | cons x es ih =>
    obtain ⟨k, v⟩ := x
    obtain ⟨s, hk⟩ := hs.keys _ List.mem_cons_self
    simp only at hk
    subst hk
    have hn := not_has_of_unique hs.unique
    have hok := (createEntryLoop_ok_iff hE name hs e).1 ⟨e', h⟩
    rw [createEntryLoop, hE s] at h
    have locskip : s ∉ locationNames → ∀ {e'' : Entry},
        (∀ k ∈ locationNames, ∀ v, (Value.str k, v) ∈ es → ∃ ls, LocsOf k v ls ∧ e''.locations = some ls) →
        ∀ k ∈ locationNames, ∀ w, (Value.str k, w) ∈ (Value.str s, v) :: es → ∃ ls, LocsOf k w ls ∧ e''.locations = some ls := by
      intro hmem e'' hh k hk w hw
      rcases List.mem_cons.1 hw with hw | hw
      · cases hw; exact absurd hk hmem
      · exact hh k hk w hw
    have nl : ∀ {e'' e2 : Entry}, ((∀ k ∈ locationNames, ¬Has es k) → e''.locations = e2.locations) →
        (∀ k ∈ locationNames, ¬Has ((Value.str s, v) :: es) k) → e''.locations = e2.locations := by
      intro e'' e2 hh h
      exact hh (fun k hk h' => h k hk (has_cons.2 (.inr h')))
    by_cases h1 : s = "datadir".toList
    · subst h1
      simp only [if_true] at h
      obtain ⟨d, rfl⟩ := hs.text "datadir".toList (by decide) v List.mem_cons_self
      rw [hE d] at h
      have hi := ih hs.tail _ h
      exact ⟨by rw [hi.rest], setting_here hn hi.dataDir rfl, setting_skip (by decide) hi.pluginDir,
        setting_skip (by decide) hi.pluginFile, locskip (by decide) hi.locations, nl hi.noLocations⟩
    by_cases h2 : s = "plugindir".toList
    · subst h2
      rw [if_neg h1, if_pos rfl] at h
      obtain ⟨d, rfl⟩ := hs.text "plugindir".toList (by decide) v List.mem_cons_self
      rw [hE d] at h
      have hi := ih hs.tail _ h
      exact ⟨by rw [hi.rest], setting_skip (by decide) hi.dataDir, setting_here hn hi.pluginDir rfl,
        setting_skip (by decide) hi.pluginFile, locskip (by decide) hi.locations, nl hi.noLocations⟩
    by_cases h3 : s = "pluginfile".toList
    · subst h3
      rw [if_neg h1, if_neg h2, if_pos rfl] at h
      obtain ⟨d, rfl⟩ := hs.text "pluginfile".toList (by decide) v List.mem_cons_self
      rw [hE d] at h
      have hi := ih hs.tail _ h
      exact ⟨by rw [hi.rest], setting_skip (by decide) hi.dataDir, setting_skip (by decide) hi.pluginDir,
        setting_here hn hi.pluginFile rfl, locskip (by decide) hi.locations, nl hi.noLocations⟩
    rw [if_neg h1, if_neg h2, if_neg h3, locationKeys_eq] at h
    by_cases hmem : s ∈ locationNames
    · rw [if_pos hmem] at h
      by_cases he : e.locations.isSome = true
      · rw [if_pos he] at h; cases h
      · rw [if_neg he] at h
        obtain ⟨ls, hls⟩ := hs.locs s hmem v List.mem_cons_self
        rw [createLocations_eq hE hls] at h
        have hi := ih hs.tail _ h
        have htail : ∀ k ∈ locationNames, ¬Has es k := fun k hk hh =>
          hok.1 ((twoOf_cons hn).2 (.inr ⟨hmem, k, hk, hh⟩))
        refine ⟨by rw [hi.rest], setting_skip h1 hi.dataDir, setting_skip h2 hi.pluginDir,
          setting_skip h3 hi.pluginFile, ?_, fun hh => absurd (has_cons.2 (.inl rfl)) (hh s hmem)⟩
        intro k hk w hw
        rcases List.mem_cons.1 hw with hw | hw
        · cases hw
          exact ⟨ls, hls, hi.noLocations htail⟩
        · exact absurd ⟨w, hw⟩ (htail k hk)
    · rw [if_neg hmem] at h
      have hi := ih hs.tail _ h
      exact ⟨hi.rest, setting_skip h1 hi.dataDir, setting_skip h2 hi.pluginDir,
          setting_skip h3 hi.pluginFile, locskip hmem hi.locations, nl hi.noLocations⟩

theorem createEntry_ok_iff {E : CfgEnv} (hE : E.Plain) (root name : Str) {es : Entries} (hs : EntryShape es) :
    (∃ e, createEntry E root name es = .ok e) ↔ ¬BadEntry es := by
  unfold createEntry BadEntry
  have h1 := initialize_ok_iff hE name hs { root := root, name := name }
  cases hi : Entry.initialize E name { root := root, name := name } es with
  | panic er =>
    constructor
    · rintro ⟨e, h⟩; cases h
    · intro h
      exfalso
      simp only [not_or] at h
      obtain ⟨e', he⟩ := h1.2 ⟨h.1, fun h => by simp at h, h.2.2⟩
      rw [hi] at he
      cases he
  | ok e =>
    have hi1 := h1.1 ⟨e, hi⟩
    have hset := initialize_set hE name hs _ _ hi
    show (∃ e', createEntryLoop E name e es = .ok e') ↔ _
    rw [createEntryLoop_ok_iff hE name hs]
    have hl : e.locations = none := by rw [hset.rest]
    simp only [hl, Option.isSome_none, Bool.false_eq_true, false_and, not_false_eq_true, and_true, not_or]
    exact ⟨fun h => ⟨hi1.1, h, hi1.2.2⟩, fun h => h.2.1⟩

theorem createEntry_describes {E : CfgEnv} (hE : E.Plain) (root name : Str) {es : Entries} (hs : EntryShape es) (e : Entry)
    (h : createEntry E root name es = .ok e) : Describes root name es e := by
  unfold createEntry at h
  cases hi : Entry.initialize E name { root := root, name := name } es with
  | panic er => rw [hi] at h; cases h
  | ok e1 =>
    rw [hi] at h
    have h1 := initialize_set hE name hs _ _ hi
    have h2 := createEntryLoop_set hE name hs _ _ h
    have hr : e1.dataDir = [] ∧ e1.pluginDir = [] ∧ e1.pluginFile = [] ∧ e1.locations = none ∧ e1.root = root ∧ e1.name = name := by
      rw [h1.rest]; exact ⟨rfl, rfl, rfl, rfl, rfl, rfl⟩
    have hf : e.options = e1.options ∧ e.function = e1.function ∧ e.root = e1.root ∧ e.name = e1.name := by
      rw [h2.rest]; exact ⟨rfl, rfl, rfl, rfl⟩
    refine ⟨hf.2.2.1.trans hr.2.2.2.2.1, hf.2.2.2.trans hr.2.2.2.2.2, ?_, ?_, ?_, ?_, ?_, ?_, ?_, ?_, h2.locations, ?_⟩
    · rw [← hr.1]; exact h2.dataDir
    · rw [← hr.2.1]; exact h2.pluginDir
    · rw [← hr.2.2.1]; exact h2.pluginFile
    · rw [hf.1]; exact h1.options
    · intro n hm; rw [hf.2.1]; exact h1.function _ _ n (by decide) hm
    · intro n hm; rw [hf.2.1]; exact h1.function _ _ n (by decide) hm
    · intro n hm; rw [hf.2.1]; exact h1.function _ _ n (by decide) hm
    · intro hh; rw [hf.2.1, h1.noFunction hh]
    · intro hh; rw [h2.noLocations hh, hr.2.2.2.1]

/-! ### Configurations -/

theorem isRString_str {v : Value} (h : isRString v = true) : ∃ s, v = .str s := by
  cases v <;> simp [isRString] at h
  exact ⟨_, rfl⟩

theorem rstrings {es : List Value} (h : es.all isRString = true) : ∃ ss : List Str, es = ss.map .str := by
  induction es with
  | nil => exact ⟨[], rfl⟩
  | cons e es ih =>
    simp only [List.all_cons, Bool.and_eq_true] at h
    obtain ⟨s, rfl⟩ := isRString_str h.1
    obtain ⟨ss, rfl⟩ := ih h.2
    exact ⟨s :: ss, rfl⟩

theorem isOptions_map {v : Value} (h : isOptions v = true) : ∃ os, v = .map os ∧ StrKeys os := by
  cases v with
  | map os =>
    refine ⟨os, rfl, fun e he => ?_⟩
    simp only [isOptions, List.all_eq_true, Bool.and_eq_true] at h
    have := (h e he).1
    cases hk : e.1 <;> rw [hk] at this <;> simp [isOptionKey] at this
    exact ⟨_, rfl⟩
  | _ => simp [isOptions] at h

theorem isRStrings_arr {n : Nat} {m : Option Nat} {v : Value} (h : isRStrings n m v = true) :
    ∃ ss : List Str, v = .arr (ss.map .str) ∧ n ≤ ss.length ∧ ∀ k, m = some k → ss.length ≤ k := by
  cases v with
  | arr es =>
    simp only [isRStrings, Bool.and_eq_true, decide_eq_true_eq] at h
    obtain ⟨ss, rfl⟩ := rstrings h.2
    refine ⟨ss, rfl, by simpa using h.1.1, fun k hk => ?_⟩
    subst hk
    simpa using h.1.2
  | _ => simp [isRStrings] at h

theorem isStruct_shape {b : Bool} {es : Entries} (hw : WF (.map es)) (h : isStruct b (.map es) = true) : EntryShape es := by
  simp only [isStruct, Bool.and_eq_true, List.all_eq_true] at h
  have hm : ∀ k v, (Value.str k, v) ∈ es → memberOK b k v = true := fun k v hv => h.1 _ hv
  refine ⟨fun e he => ?_, (WF_map.1 hw).2, fun v hv => ?_, fun k hk v hv => ?_, fun k hk v hv => ?_⟩
  · have := h.1 e he
    cases hk : e.1 <;> rw [hk] at this <;> simp at this
    exact ⟨_, rfl⟩
  · have := hm _ v hv
    rw [memberOK, if_pos rfl] at this
    exact isOptions_map this
  · have := hm _ v hv
    simp only [functionNames, List.cons_append, List.nil_append, List.mem_cons, List.not_mem_nil, or_false] at hk
    have text : ∀ k : Str, memberOK b k v = true → k ≠ "options".toList →
        (k ∈ ["data_dig".toList, "data_hash".toList, "lookup_key".toList, "datadir".toList, "plugindir".toList] ∨
          k = "pluginfile".toList) → ∃ s, v = .str s := by
      intro k this hno hk
      rw [memberOK, if_neg hno] at this
      by_cases h1 : k ∈ ["data_dig".toList, "data_hash".toList, "lookup_key".toList, "datadir".toList, "plugindir".toList]
      · rw [if_pos h1] at this; exact isRString_str this
      · rw [if_neg h1] at this
        rcases hk with hk | hk
        · exact absurd hk h1
        · subst hk
          cases b with
          | false => cases this
          | true =>
            rw [if_pos rfl, if_pos (by decide)] at this
            exact isRString_str this
    rcases hk with rfl | rfl | rfl | rfl | rfl | rfl
    · exact text _ this (by decide) (.inl (by decide))
    · exact text _ this (by decide) (.inl (by decide))
    · exact text _ this (by decide) (.inl (by decide))
    · exact text _ this (by decide) (.inl (by decide))
    · exact text _ this (by decide) (.inl (by decide))
    · exact text _ this (by decide) (.inr rfl)
  · have := hm _ v hv
    have hno : k ≠ "options".toList := by rintro rfl; revert hk; decide
    have h1 : k ∉ ["data_dig".toList, "data_hash".toList, "lookup_key".toList, "datadir".toList, "plugindir".toList] := by
      intro hc
      simp only [List.mem_cons, List.not_mem_nil, or_false] at hc
      rcases hc with rfl | rfl | rfl | rfl | rfl <;> revert hk <;> decide
    rw [memberOK, if_neg hno, if_neg h1] at this
    cases b with
    | false => simp at this
    | true =>
      rw [if_pos rfl] at this
      simp only [locationNames, List.mem_cons, List.not_mem_nil, or_false] at hk
      rcases hk with rfl | rfl | rfl | rfl | rfl | rfl | rfl
      · rw [if_pos (by decide)] at this; obtain ⟨s, rfl⟩ := isRString_str this; exact ⟨_, .path⟩
      · rw [if_neg (by decide), if_pos (by decide)] at this
        obtain ⟨ss, rfl, _⟩ := isRStrings_arr this; exact ⟨_, .paths⟩
      · rw [if_pos (by decide)] at this; obtain ⟨s, rfl⟩ := isRString_str this; exact ⟨_, .glob⟩
      · rw [if_neg (by decide), if_pos (by decide)] at this
        obtain ⟨ss, rfl, _⟩ := isRStrings_arr this; exact ⟨_, .globs⟩
      · rw [if_pos (by decide)] at this; obtain ⟨s, rfl⟩ := isRString_str this; exact ⟨_, .uri⟩
      · rw [if_neg (by decide), if_pos (by decide)] at this
        obtain ⟨ss, rfl, _⟩ := isRStrings_arr this; exact ⟨_, .uris⟩
      · rw [if_neg (by decide), if_neg (by decide), if_pos rfl] at this
        obtain ⟨ss, rfl, hl, hu⟩ := isRStrings_arr this
        have hu := hu 3 rfl
        match ss, hl, hu with
        | [a, b, c], _, _ => exact ⟨_, .mapped⟩

theorem isStruct_named {es : Entries} (hw : WF (.map es)) (h : isStruct true (.map es) = true) :
    ∃ n, (Value.str "name".toList, Value.str n) ∈ es ∧ Entries.getS es "name".toList = some (.str n) := by
  simp only [isStruct, Bool.and_eq_true, List.all_eq_true, Bool.not_true, Bool.false_or] at h
  cases hg : Entries.getS es "name".toList with
  | none => rw [hg] at h; simp at h
  | some v =>
    have hv := (getS_iff (WF_map.1 hw).2 _ v).1 hg
    have hm : memberOK true "name".toList v = true := h.1 _ hv
    rw [memberOK, if_neg (by decide), if_neg (by decide), if_pos rfl, if_pos (by decide)] at hm
    obtain ⟨n, rfl⟩ := isRString_str hm
    exact ⟨n, hv, rfl⟩

theorem named_unique {es : Entries} (hw : WF (.map es)) {n m : Str}
    (h : (Value.str "name".toList, Value.str n) ∈ es) (h' : Named (.map es) m) : m = n := by
  obtain ⟨_, he, hm⟩ := h'
  cases he
  have h1 := (getS_iff (WF_map.1 hw).2 _ _).2 h
  have h2 := (getS_iff (WF_map.1 hw).2 _ _).2 hm
  rw [h1] at h2
  cases h2
  rfl

theorem createHierarchyLoop_iff {E : CfgEnv} (hE : E.Plain) (root : Str) {vs : List Value} (hw : ∀ v ∈ vs, WF v)
    (hs : vs.all (isStruct true) = true) (seen : List Str) :
    (∃ cs, createHierarchyLoop E root seen vs = .ok cs) ↔
      ¬BadHierarchy vs ∧ ∀ n ∈ seen, ∀ v ∈ vs, ¬Named v n := by
  induction vs generalizing seen with
  | nil =>
    simp only [createHierarchyLoop, Res.ok.injEq, exists_eq', true_iff]
    refine ⟨?_, fun _ _ _ h => (nomatch h)⟩
    rintro (⟨_, h, _⟩ | h)
    · cases h
    · exact h List.Pairwise.nil
  | cons v vs ih =>
    simp only [List.all_cons, Bool.and_eq_true] at hs
    cases v with
    | map es =>
      have hwe := hw _ List.mem_cons_self
      obtain ⟨n, hn, hg⟩ := isStruct_named hwe hs.1
      have hshape := isStruct_shape hwe hs.1
      rw [createHierarchyLoop, hg]
      simp only [hE n]
      by_cases hseen : n ∈ seen
      · rw [if_pos hseen]
        constructor
        · rintro ⟨_, h⟩; cases h
        · rintro ⟨_, h⟩; exact absurd ⟨es, rfl, hn⟩ (h n hseen _ List.mem_cons_self)
      · rw [if_neg hseen]
        have hce := createEntry_ok_iff hE root n hshape
        cases hc : createEntry E root n es with
        | panic er =>
          constructor
          · rintro ⟨_, h⟩; cases h
          · rintro ⟨h, _⟩
            exfalso
            rw [hc] at hce
            have : ¬¬BadEntry es := fun hb => by obtain ⟨_, h⟩ := hce.2 hb; cases h
            exact this (fun hb => h (.inl ⟨es, List.mem_cons_self, hb⟩))
        | ok e =>
          have hnb := hce.1 ⟨e, hc⟩
          have ih' := ih (fun v hv => hw v (List.mem_cons_of_mem _ hv)) hs.2 (n :: seen)
          have : (∃ cs, ((Res.ok e).bind fun e =>
              (createHierarchyLoop E root (n :: seen) vs).bind fun es => Res.ok (e :: es)) = .ok cs) ↔
              ∃ cs, createHierarchyLoop E root (n :: seen) vs = .ok cs := by
            show (∃ cs, (createHierarchyLoop E root (n :: seen) vs).bind _ = .ok cs) ↔ _
            cases createHierarchyLoop E root (n :: seen) vs with
            | ok cs => exact ⟨fun _ => ⟨cs, rfl⟩, fun _ => ⟨e :: cs, rfl⟩⟩
            | panic er => exact ⟨fun ⟨_, h⟩ => (nomatch h), fun ⟨_, h⟩ => (nomatch h)⟩
          rw [this, ih']
          constructor
          · rintro ⟨h1, h2⟩
            refine ⟨?_, ?_⟩
            · rintro (⟨es', hm, hb⟩ | hp)
              · rcases List.mem_cons.1 hm with hm | hm
                · cases hm; exact hnb hb
                · exact h1 (.inl ⟨es', hm, hb⟩)
              · refine hp (List.Pairwise.cons ?_ ?_)
                · intro w hww m hm hm'
                  rw [named_unique hwe hn hm] at hm'
                  exact h2 n List.mem_cons_self w hww hm'
                · by_cases hpw : vs.Pairwise (fun v w => ∀ n, Named v n → ¬Named w n)
                  · exact hpw
                  · exact absurd (.inr hpw) h1
            · intro m hm w hww hnm
              rcases List.mem_cons.1 hww with rfl | hww
              · rw [named_unique hwe hn hnm] at hm; exact hseen hm
              · exact h2 m (List.mem_cons_of_mem _ hm) w hww hnm
          · rintro ⟨h1, h2⟩
            refine ⟨?_, ?_⟩
            · rintro (⟨es', hm, hb⟩ | hp)
              · exact h1 (.inl ⟨es', List.mem_cons_of_mem _ hm, hb⟩)
              · exact h1 (.inr (fun h => hp h.of_cons))
            · intro m hm w hww hnm
              rcases List.mem_cons.1 hm with rfl | hm
              · refine h1 (.inr (fun h => ?_))
                exact List.rel_of_pairwise_cons h hww m ⟨es, rfl, hn⟩ hnm
              · exact h2 m hm w (List.mem_cons_of_mem _ hww) hnm
    | _ => simp [isStruct] at hs

theorem createHierarchyLoop_describes {E : CfgEnv} (hE : E.Plain) (root : Str) {vs : List Value} (hw : ∀ v ∈ vs, WF v)
    (hs : vs.all (isStruct true) = true) (seen : List Str) (cs : List Entry)
    (h : createHierarchyLoop E root seen vs = .ok cs) : DescribesAll root vs cs := by
  induction vs generalizing seen cs with
  | nil => cases h; exact .nil
  | cons v vs ih =>
    simp only [List.all_cons, Bool.and_eq_true] at hs
    cases v with
    | map es =>
      have hwe := hw _ List.mem_cons_self
      obtain ⟨n, hn, hg⟩ := isStruct_named hwe hs.1
      rw [createHierarchyLoop, hg] at h
      simp only [hE n] at h
      by_cases hseen : n ∈ seen
      · rw [if_pos hseen] at h; cases h
      · rw [if_neg hseen] at h
        cases hc : createEntry E root n es with
        | panic er => rw [hc] at h; cases h
        | ok e =>
          rw [hc] at h
          cases hl : createHierarchyLoop E root (n :: seen) vs with
          | panic er => 
            simp only [Res.bind, hl] at h
            cases h
          | ok cs' =>
            simp only [Res.bind, hl] at h
            cases h
            exact .cons hn (createEntry_describes hE root n (isStruct_shape hwe hs.1) e hc)
              (ih (fun v hv => hw v (List.mem_cons_of_mem _ hv)) hs.2 _ _ hl)
    | _ => simp [isStruct] at hs

theorem isCfg_member {es : Entries} (hc : isCfg es = true) {k : Str} {v : Value} (h : (Value.str k, v) ∈ es) :
    k = "version".toList ∨ (k = "defaults".toList ∧ isStruct false v = true) ∨
    (k ∈ ["hierarchy".toList, "default_hierarchy".toList] ∧ isEntryArray v = true) := by
  simp only [isCfg, Bool.and_eq_true, List.all_eq_true] at hc
  have := hc.2 _ h
  simp only at this
  by_cases h1 : k = "version".toList
  · exact .inl h1
  · rw [if_neg h1] at this
    by_cases h2 : k = "defaults".toList
    · rw [if_pos h2] at this; exact .inr (.inl ⟨h2, this⟩)
    · rw [if_neg h2] at this
      by_cases h3 : k ∈ ["hierarchy".toList, "default_hierarchy".toList]
      · rw [if_pos h3] at this; exact .inr (.inr ⟨h3, this⟩)
      · rw [if_neg h3] at this; cases this

theorem wf_value {es : Entries} (hw : WF (.map es)) {k v : Value} (h : (k, v) ∈ es) : WF v :=
  ((WF_map.1 hw).1 _ h).2

/-- The defaults of a configuration. -/
theorem cfg_defaults {es : Entries} (hw : WF (.map es)) (hc : isCfg es = true) :
    (∃ v, Entries.getS es "defaults".toList = some (.map v) ∧ (Value.str "defaults".toList, Value.map v) ∈ es ∧
      EntryShape v) ∨ (Entries.getS es "defaults".toList = none ∧ ¬Has es "defaults".toList) := by
  have hu := (WF_map.1 hw).2
  cases hg : Entries.getS es "defaults".toList with
  | none => exact .inr ⟨rfl, (getS_none hu _).1 hg⟩
  | some v =>
    have hm := (getS_iff hu _ _).1 hg
    rcases isCfg_member hc hm with h | ⟨_, h⟩ | ⟨h, _⟩
    · exact absurd h (by decide)
    · cases v with
      | map d => exact .inl ⟨d, rfl, hm, isStruct_shape (wf_value hw hm) h⟩
      | _ => simp [isStruct] at h
    · exact absurd h (by decide)

/-- A hierarchy of a configuration. -/
theorem cfg_hierarchy {es : Entries} (hw : WF (.map es)) (hc : isCfg es = true) (h : Str)
    (hh : h ∈ ["hierarchy".toList, "default_hierarchy".toList]) :
    (∃ vs, Entries.getS es h = some (.arr vs) ∧ (Value.str h, Value.arr vs) ∈ es ∧ (∀ v ∈ vs, WF v) ∧
      vs.all (isStruct true) = true) ∨ (Entries.getS es h = none ∧ ¬Has es h) := by
  have hu := (WF_map.1 hw).2
  cases hg : Entries.getS es h with
  | none => exact .inr ⟨rfl, (getS_none hu _).1 hg⟩
  | some v =>
    have hm := (getS_iff hu _ _).1 hg
    rcases isCfg_member hc hm with h' | ⟨h', _⟩ | ⟨_, h'⟩
    · subst h'; exact absurd hh (by decide)
    · subst h'; exact absurd hh (by decide)
    · cases v with
      | arr vs => exact .inl ⟨vs, rfl, hm, WF_arr.1 (wf_value hw hm), h'⟩
      | _ => simp [isEntryArray] at h'

theorem mem_unique {es : Entries} (hu : UniqueKeys es) {k : Str} {v w : Value} (h : (Value.str k, v) ∈ es)
    (h' : (Value.str k, w) ∈ es) : v = w := by
  have h1 := (getS_iff hu _ _).2 h
  have h2 := (getS_iff hu _ _).2 h'
  rw [h1] at h2
  cases h2
  rfl

theorem hierarchy_ok_iff {E : CfgEnv} (hE : E.Plain) {es : Entries} (hw : WF (.map es)) (hc : isCfg es = true) (root h : Str)
    (hh : h ∈ ["hierarchy".toList, "default_hierarchy".toList]) (d : List Entry) :
    (∃ cs, (match Entries.getS es h with
      | some hv => createHierarchy E root hv
      | none => .ok d) = .ok cs) ↔ ¬∃ vs, (Value.str h, Value.arr vs) ∈ es ∧ BadHierarchy vs := by
  rcases cfg_hierarchy hw hc h hh with ⟨vs, hg, hm, hwv, hst⟩ | ⟨hg, hn⟩
  · rw [hg]
    simp only [createHierarchy]
    rw [createHierarchyLoop_iff hE root hwv hst []]
    constructor
    · rintro ⟨h1, _⟩ ⟨vs', hm', hb⟩
      cases mem_unique (WF_map.1 hw).2 hm hm'
      exact h1 hb
    · intro h1
      exact ⟨fun hb => h1 ⟨vs, hm, hb⟩, fun _ hx => (nomatch hx)⟩
  · rw [hg]
    exact ⟨fun _ ⟨vs, hm, _⟩ => hn ⟨_, hm⟩, fun _ => ⟨d, rfl⟩⟩

theorem hierarchy_describes {E : CfgEnv} (hE : E.Plain) {es : Entries} (hw : WF (.map es)) (hc : isCfg es = true) (root h : Str)
    (hh : h ∈ ["hierarchy".toList, "default_hierarchy".toList]) (d cs : List Entry)
    (h0 : (match Entries.getS es h with
      | some hv => createHierarchy E root hv
      | none => .ok d) = .ok cs) :
    (∀ vs, (Value.str h, Value.arr vs) ∈ es → DescribesAll root vs cs) ∧ (¬Has es h → cs = d) := by
  rcases cfg_hierarchy hw hc h hh with ⟨vs, hg, hm, hwv, hst⟩ | ⟨hg, hn⟩
  · rw [hg] at h0
    refine ⟨fun vs' hm' => ?_, fun hn => absurd ⟨_, hm⟩ hn⟩
    cases mem_unique (WF_map.1 hw).2 hm hm'
    exact createHierarchyLoop_describes hE root hwv hst [] cs h0
  · rw [hg] at h0
    cases h0
    exact ⟨fun vs' hm' => absurd ⟨_, hm'⟩ hn, fun _ => rfl⟩

theorem makeDefaultConfig_builtIn (E : CfgEnv) (root : Str) : BuiltIn E.lookupEnv root (makeDefaultConfig E root) := by
  refine ⟨rfl, rfl, ⟨fun d h => ?_, fun h => ?_⟩, ⟨fun d h => ?_, fun h => ?_⟩, rfl, rfl, rfl⟩
  · simp only [makeDefaultConfig, CfgEnv.defaultDataDir, h, Option.getD_some]
  · simp only [makeDefaultConfig, CfgEnv.defaultDataDir, h, Option.getD_none]
  · simp only [makeDefaultConfig, CfgEnv.defaultPluginDir, h, Option.getD_some]
  · simp only [makeDefaultConfig, CfgEnv.defaultPluginDir, h, Option.getD_none]

theorem Res.bind_ok_iff {α β : Type} {r : Res α} {f : α → Res β} {b : β} :
    r.bind f = .ok b ↔ ∃ a, r = .ok a ∧ f a = .ok b := by
  cases r with
  | ok a => exact ⟨fun h => ⟨a, rfl, h⟩, fun ⟨_, h, h'⟩ => by cases h; exact h'⟩
  | panic e => exact ⟨fun h => (nomatch h), fun ⟨_, h, _⟩ => (nomatch h)⟩

theorem createConfig_iff {E : CfgEnv} (hE : E.Plain) (path : Str) {es : Entries} (hw : WF (.map es)) (hc : isCfg es = true) :
    (∃ c, createConfig E path es = .ok c) ↔ ¬Ambiguous es := by
  have hu := (WF_map.1 hw).2
  have hH := hierarchy_ok_iff hE hw hc (dir path) "hierarchy".toList (by decide) (makeDefaultHierarchy (dir path))
  have hD := hierarchy_ok_iff hE hw hc (dir path) "default_hierarchy".toList (by decide) []
  have hdef : (∃ e, (match Entries.getS es "defaults".toList with
      | some (.map dv) => createEntry E (dir path) "defaults".toList dv
      | some _ => .panic .typeAssertion
      | none => .ok (makeDefaultConfig E (dir path))) = .ok e) ↔
      ¬∃ d, (Value.str "defaults".toList, Value.map d) ∈ es ∧ BadEntry d := by
    rcases cfg_defaults hw hc with ⟨v, hg, hm, hs⟩ | ⟨hg, hn⟩
    · rw [hg]
      simp only
      rw [createEntry_ok_iff hE (dir path) _ hs]
      constructor
      · rintro h ⟨d, hd, hb⟩
        cases mem_unique hu hm hd
        exact h hb
      · exact fun h hb => h ⟨v, hm, hb⟩
    · rw [hg]
      exact ⟨fun _ ⟨d, hm, _⟩ => hn ⟨_, hm⟩, fun _ => ⟨_, rfl⟩⟩
  unfold createConfig Ambiguous
  simp only [Res.bind_ok_iff, Res.ok.injEq, not_or]
  constructor
  · rintro ⟨c, d, h1, h, h2, dh, h3, _⟩
    refine ⟨hdef.1 ⟨_, h1⟩, ?_⟩
    rintro ⟨x, hx, hb⟩
    simp only [List.mem_cons, List.not_mem_nil, or_false] at hx
    rcases hx with rfl | rfl
    · exact hH.1 ⟨_, h2⟩ hb
    · exact hD.1 ⟨_, h3⟩ hb
  · rintro ⟨h1, h2⟩
    obtain ⟨d, hd⟩ := hdef.2 h1
    obtain ⟨h, hh⟩ := hH.2 (fun hb => h2 ⟨_, by decide, hb⟩)
    obtain ⟨dh, hdh⟩ := hD.2 (fun hb => h2 ⟨_, by decide, hb⟩)
    exact ⟨_, d, hd, h, hh, dh, hdh, rfl⟩

theorem createConfig_describes {E : CfgEnv} (hE : E.Plain) (path : Str) {es : Entries} (hw : WF (.map es))
    (hc : isCfg es = true) (c : Cfg) (h : createConfig E path es = .ok c) :
    DescribesCfg E.lookupEnv (dir path) path es c := by
  have hu := (WF_map.1 hw).2
  unfold createConfig at h
  simp only [Res.bind_ok_iff, Res.ok.injEq] at h
  obtain ⟨d, h1, hi, h2, dh, h3, rfl⟩ := h
  have hH := hierarchy_describes hE hw hc _ "hierarchy".toList (by decide) _ _ h2
  have hD := hierarchy_describes hE hw hc _ "default_hierarchy".toList (by decide) _ _ h3
  refine ⟨rfl, rfl, ?_, ?_, hH.1, hH.2, hD.1, hD.2⟩
  · intro dv hm
    rcases cfg_defaults hw hc with ⟨v, hg, hm', hs⟩ | ⟨_, hn⟩
    · cases mem_unique hu hm hm'
      rw [hg] at h1
      exact createEntry_describes hE _ _ hs _ h1
    · exact absurd ⟨_, hm⟩ hn
  · intro hn
    rcases cfg_defaults hw hc with ⟨v, hg, hm', hs⟩ | ⟨hg, _⟩
    · exact absurd ⟨_, hm'⟩ hn
    · rw [hg] at h1
      cases h1
      exact makeDefaultConfig_builtIn E _

end Hiera
