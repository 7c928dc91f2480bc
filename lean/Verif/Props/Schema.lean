/- C86: which configuration files are accepted. -/
import Verif.Spec.Schema
import Verif.Props.Config

set_option autoImplicit false

namespace Hiera
open Value Spec World

theorem isAlpha_iff (c : Char) : isAlpha c = true ↔ Letter c := by
  unfold isAlpha Letter
  simp only [Bool.or_eq_true, Bool.and_eq_true, decide_eq_true_eq]

theorem isAlnum_iff (c : Char) : isAlnum c = true ↔ Letter c ∨ Digit c := by
  unfold isAlnum Digit
  simp only [Bool.or_eq_true, Bool.and_eq_true, decide_eq_true_eq, isAlpha_iff]

theorem isOptionTail_iff (cs : Str) : isOptionTail cs = true ↔
    ∃ mid d, cs = mid ++ [d] ∧ (∀ x ∈ mid, Letter x ∨ Digit x ∨ x = '_' ∨ x = '-') ∧ (Letter d ∨ Digit d) := by
  induction cs with
  | nil =>
    constructor
    · intro h; cases h
    · rintro ⟨mid, d, h, _⟩; simp at h
  | cons c cs ih =>
    cases cs with
    | nil =>
      show isAlnum c = true ↔ _
      rw [isAlnum_iff]
      constructor
      · intro h; exact ⟨[], c, rfl, by simp, h⟩
      · rintro ⟨mid, d, h, _, hd⟩
        cases mid with
        | nil => cases h; exact hd
        | cons x mid => simp at h
    | cons b cs =>
      have e : isOptionTail (c :: b :: cs) = ((isAlnum c || c == '_' || c == '-') && isOptionTail (b :: cs)) := rfl
      rw [e]
      simp only [Bool.and_eq_true, Bool.or_eq_true, beq_iff_eq, isAlnum_iff]
      rw [ih]
      constructor
      · rintro ⟨h, mid, d, h1, h2, h3⟩
        refine ⟨c :: mid, d, by rw [h1]; rfl, ?_, h3⟩
        intro x hx
        rcases List.mem_cons.1 hx with rfl | hx
        · tauto
        · exact h2 x hx
      · rintro ⟨mid, d, h1, h2, h3⟩
        cases mid with
        | nil => simp at h1
        | cons x mid =>
          simp only [List.cons_append, List.cons.injEq] at h1
          obtain ⟨rfl, h1⟩ := h1
          refine ⟨?_, mid, d, h1, fun y hy => h2 y (by simp [hy]), h3⟩
          have := h2 c (by simp)
          tauto

theorem isOptionKey_iff (k : Value) : isOptionKey k = true ↔ ∃ s, k = .str s ∧ OptionName s := by
  constructor
  · intro h
    match k, h with
    | .str (c :: cs), h =>
      refine ⟨_, rfl, ?_⟩
      simp only [isOptionKey, Bool.and_eq_true, Bool.or_eq_true, isAlpha_iff, List.isEmpty_iff] at h
      obtain ⟨hc, (h | h) | h⟩ := h
      · subst h; exact .letter hc
      · obtain ⟨mid, d, rfl, h2, h3⟩ := (isOptionTail_iff cs).1 h
        exact .word (colon := []) hc (.inl rfl) h2 h3
      · split at h
        · rename_i ds
          obtain ⟨mid, d, rfl, h2, h3⟩ := (isOptionTail_iff ds).1 h
          exact .word (colon := [':']) hc (.inr rfl) h2 h3
        · cases h
  · rintro ⟨s, rfl, h⟩
    cases h with
    | letter h => simp [isOptionKey, isAlpha_iff, h]
    | @word c colon mid d hc hcol hm hd =>
      have ht := (isOptionTail_iff (mid ++ [d])).2 ⟨mid, d, rfl, hm, hd⟩
      rcases hcol with rfl | rfl
      · simp only [List.cons_append, List.nil_append, isOptionKey, Bool.and_eq_true, Bool.or_eq_true, isAlpha_iff]
        exact ⟨hc, .inl (.inr ht)⟩
      · simp only [List.cons_append, List.nil_append, isOptionKey, Bool.and_eq_true, Bool.or_eq_true, isAlpha_iff]
        exact ⟨hc, .inr ht⟩

mutual
theorem isData_plain : ∀ v : Value, isData v = true ↔ PlainData v
  | .arr es => by
    rw [isData, isDataList_plain es]
    constructor
    · exact .arr
    · intro h
      cases h with
      | atom h => exact absurd rfl (h es)
      | arr h => exact h
  | .map es => by
    rw [isData, isDataMap_plain es]
    constructor
    · exact fun h => .map (fun k v hm => (h k v hm).1) (fun k v hm => (h k v hm).2)
    · intro h
      cases h with
      | atom _ h => exact absurd rfl (h es)
      | map h h' => exact fun k v hm => ⟨h k v hm, h' k v hm⟩
  | .sensitive x => by
    constructor
    · intro h; cases h
    · intro h
      cases h with
      | atom _ _ h => exact absurd rfl (h x)
  | .null => ⟨fun _ => .atom (by simp) (by simp) (by simp), fun _ => rfl⟩
  | .bool _ => ⟨fun _ => .atom (by simp) (by simp) (by simp), fun _ => rfl⟩
  | .int _ => ⟨fun _ => .atom (by simp) (by simp) (by simp), fun _ => rfl⟩
  | .str _ => ⟨fun _ => .atom (by simp) (by simp) (by simp), fun _ => rfl⟩
  | .opaque _ => ⟨fun _ => .atom (by simp) (by simp) (by simp), fun _ => rfl⟩
theorem isDataList_plain : ∀ vs : List Value, isDataList vs = true ↔ ∀ v ∈ vs, PlainData v
  | [] => by simp [isDataList]
  | v :: vs => by
    rw [isDataList, Bool.and_eq_true, isData_plain v, isDataList_plain vs]
    simp
theorem isDataMap_plain : ∀ es : List (Value × Value), isDataMap es = true ↔ ∀ k v, (k, v) ∈ es → (∃ s, k = .str s) ∧ PlainData v
  | [] => by simp [isDataMap]
  | (k, v) :: es => by
    have hk : isDataMap ((k, v) :: es) = true ↔ ((∃ s, k = .str s) ∧ isData v = true) ∧ isDataMap es = true := by
      cases k <;> simp [isDataMap]
    rw [hk, isData_plain v, isDataMap_plain es]
    constructor
    · rintro ⟨⟨h1, h2⟩, h3⟩ k' v' hm
      rcases List.mem_cons.1 hm with h | h
      · cases h; exact ⟨h1, h2⟩
      · exact h3 k' v' h
    · intro h
      exact ⟨h k v (by simp), fun k' v' hm => h k' v' (by simp [hm])⟩
end

theorem isRString_iff (v : Value) : isRString v = true ↔ SomeText v := by
  unfold SomeText
  cases v <;> simp [isRString]

theorem isOptions_iff (v : Value) : isOptions v = true ↔ WellOptions v := by
  unfold WellOptions
  cases v with
  | map es =>
    simp only [isOptions, List.all_eq_true, Bool.and_eq_true, isOptionKey_iff, isData_plain, Value.map.injEq]
    constructor
    · intro h; exact ⟨es, rfl, fun k x hm => h (k, x) hm⟩
    · rintro ⟨_, rfl, h⟩ ⟨k, x⟩ hm; exact h k x hm
  | _ => simp [isOptions]

theorem isRStrings_some (v : Value) : isRStrings 1 none v = true ↔ ∃ vs, v = .arr vs ∧ vs ≠ [] ∧ ∀ x ∈ vs, SomeText x := by
  cases v with
  | arr es =>
    simp only [isRStrings, Bool.and_true, Bool.and_eq_true, decide_eq_true_eq, List.all_eq_true, isRString_iff, Value.arr.injEq]
    constructor
    · rintro ⟨h1, h2⟩; exact ⟨es, rfl, by rintro rfl; simp at h1, h2⟩
    · rintro ⟨_, rfl, h1, h2⟩; exact ⟨List.length_pos_iff.2 h1, h2⟩
  | _ => simp [isRStrings]

theorem isRStrings_three (v : Value) : isRStrings 3 (some 3) v = true ↔ ∃ a b c, v = .arr [a, b, c] ∧ SomeText a ∧ SomeText b ∧ SomeText c := by
  cases v with
  | arr es =>
    simp only [isRStrings, Bool.and_eq_true, decide_eq_true_eq, List.all_eq_true, isRString_iff, Value.arr.injEq]
    constructor
    · rintro ⟨⟨h1, h1'⟩, h2⟩
      match es, h1, h1', h2 with
      | [a, b, c], _, _, h2 => exact ⟨a, b, c, rfl, h2 a (by simp), h2 b (by simp), h2 c (by simp)⟩
      | [], h, _, _ => simp at h
      | [_], h, _, _ => simp at h
      | [_, _], h, _, _ => simp at h
      | _ :: _ :: _ :: _ :: _, _, h, _ => simp at h
    · rintro ⟨a, b, c, rfl, ha, hb, hc⟩
      simp [ha, hb, hc]
  | _ => simp [isRStrings]

theorem memberOK_defaults (k : Str) (v : Value) : memberOK false k v = true ↔ DefaultsMember k v := by
  unfold memberOK DefaultsMember
  split
  · rename_i h
    subst h
    rw [isOptions_iff]
    constructor
    · exact fun h => .inl ⟨rfl, h⟩
    · rintro (⟨_, h⟩ | ⟨h, _⟩)
      · exact h
      · exact absurd h (by decide)
  · rename_i h
    split
    · rename_i h2
      rw [isRString_iff]
      constructor
      · exact fun h => .inr ⟨h2, h⟩
      · rintro (⟨h', _⟩ | ⟨_, h⟩)
        · exact absurd h' h
        · exact h
    · rename_i h2
      constructor
      · intro h; cases h
      · rintro (⟨h', _⟩ | ⟨h', _⟩)
        · exact absurd h' h
        · exact absurd h' h2

theorem memberOK_entry (k : Str) (v : Value) : memberOK true k v = true ↔ EntryMember k v := by
  have hd := memberOK_defaults k v
  unfold EntryMember
  unfold memberOK at hd ⊢
  split at hd
  · rename_i h
    rw [if_pos h]
    rw [hd]
    constructor
    · exact .inl
    · rintro (h' | ⟨h', _⟩ | ⟨h', _⟩ | ⟨h', _⟩)
      · exact h'
      all_goals (subst h; exact absurd h' (by decide))
  · rename_i h
    rw [if_neg h]
    split at hd
    · rename_i h2
      rw [if_pos h2, hd]
      constructor
      · exact .inl
      · have : ∀ k ∈ ["data_dig".toList, "data_hash".toList, "lookup_key".toList, "datadir".toList, "plugindir".toList],
            k ∉ ["name".toList, "pluginfile".toList, "path".toList, "glob".toList, "uri".toList] ∧
            k ∉ ["paths".toList, "globs".toList, "uris".toList] ∧ k ≠ "mapped_paths".toList := by decide
        obtain ⟨a, b, c⟩ := this k h2
        rintro (h' | ⟨h', _⟩ | ⟨h', _⟩ | ⟨h', _⟩)
        · exact h'
        · exact absurd h' a
        · exact absurd h' b
        · exact absurd h' c
    · rename_i h2
      rw [if_neg h2, if_pos rfl]
      have nd : ¬DefaultsMember k v := fun h => by simpa using hd.2 h
      split
      · rename_i h3
        rw [isRString_iff]
        constructor
        · exact fun h => .inr (.inl ⟨h3, h⟩)
        · have : ∀ k ∈ ["name".toList, "pluginfile".toList, "path".toList, "glob".toList, "uri".toList],
            k ∉ ["paths".toList, "globs".toList, "uris".toList] ∧ k ≠ "mapped_paths".toList := by decide
          obtain ⟨b, c⟩ := this k h3
          rintro (h' | ⟨_, h'⟩ | ⟨h', _⟩ | ⟨h', _⟩)
          · exact absurd h' nd
          · exact h'
          · exact absurd h' b
          · exact absurd h' c
      · rename_i h3
        split
        · rename_i h4
          rw [isRStrings_some]
          constructor
          · exact fun h => .inr (.inr (.inl ⟨h4, h⟩))
          · have : ∀ k ∈ ["paths".toList, "globs".toList, "uris".toList], k ≠ "mapped_paths".toList := by decide
            have c := this k h4
            rintro (h' | ⟨h', _⟩ | ⟨_, h'⟩ | ⟨h', _⟩)
            · exact absurd h' nd
            · exact absurd h' h3
            · exact h'
            · exact absurd h' c
        · rename_i h4
          split
          · rename_i h5
            rw [isRStrings_three]
            constructor
            · exact fun h => .inr (.inr (.inr ⟨h5, h⟩))
            · rintro (h' | ⟨h', _⟩ | ⟨h', _⟩ | ⟨_, h'⟩)
              · exact absurd h' nd
              · exact absurd h' h3
              · exact absurd h' h4
              · exact h'
          · rename_i h5
            constructor
            · intro h; cases h
            · rintro (h' | ⟨h', _⟩ | ⟨h', _⟩ | ⟨h', _⟩)
              · exact absurd h' nd
              · exact absurd h' h3
              · exact absurd h' h4
              · exact absurd h' h5

theorem isStruct_defaults (v : Value) : isStruct false v = true ↔ WellDefaults v := by
  unfold WellDefaults
  cases v with
  | map es =>
    simp only [isStruct, Bool.not_false, Bool.true_or, Bool.and_true, List.all_eq_true, Value.map.injEq]
    constructor
    · intro h
      refine ⟨es, rfl, fun k x hm => ?_⟩
      have := h (k, x) hm
      cases k with
      | str n => exact ⟨n, rfl, (memberOK_defaults n x).1 this⟩
      | _ => cases this
    · rintro ⟨_, rfl, h⟩ ⟨k, x⟩ hm
      obtain ⟨n, rfl, hn⟩ := h k x hm
      exact (memberOK_defaults n x).2 hn
  | _ => simp [isStruct]

theorem isStruct_entry {v : Value} (hw : WF v) : isStruct true v = true ↔ WellEntry v := by
  unfold WellEntry
  cases v with
  | map es =>
    simp only [isStruct, Bool.not_true, Bool.false_or, Bool.and_eq_true, List.all_eq_true, Value.map.injEq]
    have hname : (Entries.getS es "name".toList).isSome = true ↔ Has es "name".toList := by
      have := getS_none (WF_map.1 hw).2 "name".toList
      cases hg : Entries.getS es "name".toList with
      | none => simpa using this.1 hg
      | some x =>
        simp only [Option.isSome_some, true_iff]
        exact ⟨x, (getS_iff (WF_map.1 hw).2 _ _).1 hg⟩
    rw [hname]
    constructor
    · rintro ⟨h, hn⟩
      refine ⟨es, rfl, hn, fun k x hm => ?_⟩
      have := h (k, x) hm
      cases k with
      | str n => exact ⟨n, rfl, (memberOK_entry n x).1 this⟩
      | _ => cases this
    · rintro ⟨_, rfl, hn, h⟩
      refine ⟨fun ⟨k, x⟩ hm => ?_, hn⟩
      obtain ⟨n, rfl, hn⟩ := h k x hm
      exact (memberOK_entry n x).2 hn
  | _ => simp [isStruct]

theorem isEntryArray_iff {v : Value} (hw : WF v) : isEntryArray v = true ↔ WellHierarchy v := by
  unfold WellHierarchy
  cases v with
  | arr vs =>
    simp only [isEntryArray, List.all_eq_true, Value.arr.injEq]
    constructor
    · intro h; exact ⟨vs, rfl, fun x hx => (isStruct_entry (WF_arr.1 hw x hx)).1 (h x hx)⟩
    · rintro ⟨_, rfl, h⟩ x hx; exact (isStruct_entry (WF_arr.1 hw x hx)).2 (h x hx)
  | _ => simp [isEntryArray]

theorem isCfg_iff {es : Entries} (hw : WF (.map es)) : isCfg es = true ↔ WellFormed es := by
  have hv : ∀ b, (b = match Entries.getS es "version".toList with | some (.int i) => i == 5 | _ => false) →
      (b = true ↔ (Value.str "version".toList, Value.int 5) ∈ es) := by
    rintro _ rfl
    rw [← getS_iff (WF_map.1 hw).2]
    constructor
    · intro h
      split at h
      · rename_i i hi
        rw [hi]
        simp only [beq_iff_eq] at h
        rw [h]
      · cases h
    · intro h; rw [h]; rfl
  unfold isCfg
  rw [Bool.and_eq_true, List.all_eq_true]
  refine (and_congr (hv _ rfl) Iff.rfl).trans ?_
  have hn : ("defaults".toList ≠ "version".toList) ∧ ∀ n ∈ ["hierarchy".toList, "default_hierarchy".toList],
      n ≠ "version".toList ∧ n ≠ "defaults".toList := by decide
  constructor
  · rintro ⟨h1, h2⟩
    refine ⟨h1, fun k v hm => ?_⟩
    have := h2 (k, v) hm
    cases k with
    | str n =>
      refine ⟨n, rfl, ?_⟩
      simp only at this
      split at this
      · rename_i h; exact .inl h
      · split at this
        · rename_i h; exact .inr (.inl ⟨h, (isStruct_defaults v).1 this⟩)
        · split at this
          · rename_i h; exact .inr (.inr ⟨h, (isEntryArray_iff ((WF_map.1 hw).1 _ hm).2).1 this⟩)
          · cases this
    | _ => cases this
  · rintro ⟨h1, h2⟩
    refine ⟨h1, fun ⟨k, v⟩ hm => ?_⟩
    obtain ⟨n, rfl, h⟩ := h2 k v hm
    simp only
    rcases h with h | ⟨h, hd⟩ | ⟨h, hd⟩
    · rw [if_pos h]
    · rw [if_neg (h ▸ hn.1), if_pos h]; exact (isStruct_defaults v).2 hd
    · rw [if_neg (hn.2 n h).1, if_neg (hn.2 n h).2, if_pos h]; exact (isEntryArray_iff ((WF_map.1 hw).1 _ hm).2).2 hd

/-- C86: a file is accepted exactly if it is well-formed and not ambiguous. -/
theorem C86_accepted (E : CfgEnv) (hE : ∀ x, E.toStr (.str x) = x) (path : Str) (es : Entries) (hw : WF (.map es)) :
    (∃ c, newCfg E path (.value (.map es)) = .ok c) ↔ WellFormed es ∧ ¬Ambiguous es := by
  by_cases hc : isCfg es = true
  · rw [C39_ambiguous E hE path es hw hc]
    exact ⟨fun h => ⟨(isCfg_iff hw).1 hc, h⟩, fun h => h.2⟩
  · constructor
    · rintro ⟨c, h⟩
      unfold newCfg at h
      simp only [hc] at h
      cases h
    · exact fun h => absurd ((isCfg_iff hw).2 h.1) hc

/-- C86: a file that is not well-formed is refused for that reason. -/
theorem C86_refused (E : CfgEnv) (path : Str) (es : Entries) (hw : WF (.map es)) (h : ¬WellFormed es) :
    newCfg E path (.value (.map es)) = .panic .schema := by
  unfold newCfg
  simp only [if_neg (fun hc => h ((isCfg_iff hw).1 hc))]

/-- C86: so is a file that is not a hash, be it empty; a file that cannot be read or parsed is an error as well, but a missing
file is none. -/
theorem C86_file (E : CfgEnv) (path : Str) (f : FileRes) : (∃ c, newCfg E path f = .ok c) →
    f = .missing ∨ ∃ es, f = .value (.map es) := by
  rintro ⟨c, h⟩
  cases f with
  | missing => exact .inl rfl
  | err e => cases h
  | value v =>
    cases v with
    | map es => exact .inr ⟨es, rfl⟩
    | _ => cases h

/-! ### Not vacuous -/

/-- A file with all kinds of things in it. -/
def schemaCfg : Entries :=
  [(s "version", .int 5), (s "defaults", .map [(s "datadir", s "hieradata"), (s "options", .map [(s "a:b-c", .arr [.null])])]),
   (s "hierarchy", .arr [.map [(s "name", s "x"), (s "mapped_paths", .arr [s "a", s "b", s "%{b}.yaml"])],
     .map [(s "uris", .arr [s "http://x"]), (s "lookup_key", s "f"), (s "name", s "y")]])]

example : WellFormed schemaCfg ∧ ∃ c, newCfg ⟨fun v => match v with | .str x => x | _ => [], fun _ => none⟩ "/etc/hiera.yaml".toList
    (.value (.map schemaCfg)) = .ok c := by
  refine ⟨(isCfg_iff (by simp [WF, WFEntries, WFList, schemaCfg, Value.equals, s])).1 (by decide), ?_⟩
  cases h : newCfg ⟨fun v => match v with | .str x => x | _ => [], fun _ => none⟩ "/etc/hiera.yaml".toList (.value (.map schemaCfg)) with
  | ok c => exact ⟨c, rfl⟩
  | panic e =>
    have : (match newCfg ⟨fun v => match v with | .str x => x | _ => [], fun _ => none⟩ "/etc/hiera.yaml".toList (.value (.map schemaCfg)) with
      | .ok _ => true | .panic _ => false) = true := by decide
    rw [h] at this; cases this

end Hiera
