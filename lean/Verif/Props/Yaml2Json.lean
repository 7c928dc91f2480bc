/- C96: the utility program `yaml2json`. -/
import Verif.Model.Yaml2Json

set_option autoImplicit false

namespace Hiera.Yaml2Json

mutual
/-- The JSON document says the same as the YAML document. -/
inductive Spec.Same (bad : Nat → Bool) : Yaml → Json → Prop
  | str {s : Str} : Same bad (.scalar (.str s)) (.scalar (.str s))
  | other {n : Nat} : bad n = false → Same bad (.scalar (.other n)) (.scalar (.other n))
  | seq {es : List Yaml} {js : List Json} : SameList bad es js → Same bad (.seq es) (.arr js)
  | mapping {es : List (Yaml × Yaml)} {js : List (Str × Json)} : SameMap bad es js → Same bad (.mapping es) (.obj js)
/-- Element by element. -/
inductive Spec.SameList (bad : Nat → Bool) : List Yaml → List Json → Prop
  | nil : SameList bad [] []
  | cons {e : Yaml} {j : Json} {es : List Yaml} {js : List Json} : Same bad e j → SameList bad es js → SameList bad (e :: es) (j :: js)
/-- Entry by entry: keys are strings. -/
inductive Spec.SameMap (bad : Nat → Bool) : List (Yaml × Yaml) → List (Str × Json) → Prop
  | nil : SameMap bad [] []
  | cons {k : Str} {e : Yaml} {j : Json} {es : List (Yaml × Yaml)} {js : List (Str × Json)} : Same bad e j → SameMap bad es js →
      SameMap bad ((.scalar (.str k), e) :: es) ((k, j) :: js)
end

theorem stringKeysMap_none {mk : Maker} (es : List (Yaml × Yaml)) (h : stringKeyed es = false) : stringKeysMap (unmarshalAny mk es) = none := by
  induction es with
  | nil => cases h
  | cons e es ih =>
    obtain ⟨k, v⟩ := e
    rw [unmarshalAny, stringKeysMap.eq_def]
    simp only
    rcases k with (x | n) | l | l
    · rw [show unmarshal mk (.scalar (.str x)) = .scalar (.str x) from by rw [unmarshal]]
      simp only
      have h' : stringKeyed es = false := by simpa [stringKeyed, Yaml.text] using h
      rw [ih h']
      cases stringKeys (unmarshal mk v) <;> rfl
    · rw [show unmarshal mk (.scalar (.other n)) = .scalar (.other n) from by rw [unmarshal]]
    · rw [show unmarshal mk (.seq l) = .list (unmarshalList mk l) from by rw [unmarshal]]
    · rw [unmarshal]
      by_cases hc : mk = .ifNeeded ∧ stringKeyed l = true
      · rw [if_pos hc]
      · rw [if_neg hc]

mutual
theorem convert_eq (mk : Maker) (bad : Nat → Bool) : ∀ y : Yaml,
    (stringKeys (unmarshal mk y)).bind (marshal bad) = marshal bad (unmarshal .ifNeeded y)
  | .scalar x => by rw [unmarshal, unmarshal]; simp [stringKeys]
  | .seq es => by
    rw [unmarshal, unmarshal, stringKeys, marshal, ← convertList_eq mk bad es]
    cases stringKeysList (unmarshalList mk es) with
    | none => rfl
    | some l => simp [marshal]
  | .mapping es => by
    rw [unmarshal, unmarshal]
    cases hs : stringKeyed es with
    | false =>
      simp only [Bool.false_eq_true, and_false, if_false]
      rw [stringKeys, stringKeysMap_none es hs, marshal]
      rfl
    | true =>
      simp only [and_true, if_true]
      cases mk with
      | ifNeeded => simp [stringKeys]
      | always =>
        rw [if_neg (by simp), stringKeys, marshal, ← convertMap_eq bad es hs]
        cases stringKeysMap (unmarshalAny .always es) with
        | none => rfl
        | some l => simp [marshal]
theorem convertList_eq (mk : Maker) (bad : Nat → Bool) : ∀ es : List Yaml,
    (stringKeysList (unmarshalList mk es)).bind (marshalList bad) = marshalList bad (unmarshalList .ifNeeded es)
  | [] => rfl
  | e :: es => by
    rw [unmarshalList, unmarshalList, stringKeysList, marshalList, ← convert_eq mk bad e, ← convertList_eq mk bad es]
    cases stringKeys (unmarshal mk e) with
    | none => rfl
    | some g =>
      cases stringKeysList (unmarshalList mk es) with
      | none => cases hm : marshal bad g <;> simp [hm]
      | some l => simp [marshalList]
theorem convertMap_eq (bad : Nat → Bool) : ∀ es : List (Yaml × Yaml), stringKeyed es = true →
    (stringKeysMap (unmarshalAny .always es)).bind (marshalMap bad) = marshalMap bad (unmarshalStr .ifNeeded es)
  | [], _ => rfl
  | (k, v) :: es, h => by
    rcases k with (x | n) | l | l
    · have h' : stringKeyed es = true := by simpa [stringKeyed, Yaml.text] using h
      rw [unmarshalAny, unmarshalStr, show unmarshal .always (.scalar (.str x)) = .scalar (.str x) from by rw [unmarshal], stringKeysMap,
        marshalMap, ← convert_eq .always bad v, ← convertMap_eq bad es h']
      cases stringKeys (unmarshal .always v) with
      | none => rfl
      | some g =>
        cases stringKeysMap (unmarshalAny .always es) with
        | none => cases hm : marshal bad g <;> simp [hm]
        | some l => simp [marshalMap, Yaml.text]
    · simp [stringKeyed, Yaml.text] at h
    · simp [stringKeyed, Yaml.text] at h
    · simp [stringKeyed, Yaml.text] at h
end

mutual
theorem marshal_same (bad : Nat → Bool) : ∀ (y : Yaml) (j : Json), marshal bad (unmarshal .ifNeeded y) = some j ↔ Spec.Same bad y j
  | .scalar (.str x), j => by
    rw [unmarshal, marshal]
    constructor
    · intro h; cases h; exact .str
    · intro h; cases h; rfl
  | .scalar (.other n), j => by
    rw [unmarshal, marshal]
    constructor
    · intro h
      split at h
      · cases h
      · rename_i hb
        cases h
        exact .other (by simpa using hb)
    · intro h
      cases h with
      | other hb => rw [hb]; rfl
  | .seq es, j => by
    rw [unmarshal, marshal]
    constructor
    · intro h
      cases hl : marshalList bad (unmarshalList .ifNeeded es) with
      | none => rw [hl] at h; cases h
      | some l =>
        rw [hl] at h
        cases h
        exact .seq ((marshalList_same bad es l).1 hl)
    · intro h
      cases h with
      | seq h => rw [(marshalList_same bad es _).2 h]; rfl
  | .mapping es, j => by
    rw [unmarshal]
    constructor
    · intro h
      split at h
      · rename_i hs
        rw [marshal] at h
        cases hl : marshalMap bad (unmarshalStr .ifNeeded es) with
        | none => rw [hl] at h; cases h
        | some l =>
          rw [hl] at h
          cases h
          exact .mapping ((marshalMap_same bad es l).1 ⟨hs.2, hl⟩)
      · rw [marshal] at h; cases h
    · intro h
      cases h with
      | mapping h =>
        obtain ⟨hs, hl⟩ := (marshalMap_same bad es _).2 h
        rw [if_pos ⟨rfl, hs⟩, marshal, hl]
        rfl
theorem marshalList_same (bad : Nat → Bool) : ∀ (es : List Yaml) (js : List Json),
    marshalList bad (unmarshalList .ifNeeded es) = some js ↔ Spec.SameList bad es js
  | [], js => by
    constructor
    · intro h; cases h; exact .nil
    · intro h; cases h; rfl
  | e :: es, js => by
    rw [unmarshalList, marshalList]
    constructor
    · intro h
      cases he : marshal bad (unmarshal .ifNeeded e) with
      | none => rw [he] at h; cases h
      | some j =>
        rw [he] at h
        cases hl : marshalList bad (unmarshalList .ifNeeded es) with
        | none => rw [hl] at h; cases h
        | some l =>
          rw [hl] at h
          cases h
          exact .cons ((marshal_same bad e j).1 he) ((marshalList_same bad es l).1 hl)
    · intro h
      cases h with
      | cons h1 h2 => rw [(marshal_same bad e _).2 h1, (marshalList_same bad es _).2 h2]
theorem marshalMap_same (bad : Nat → Bool) : ∀ (es : List (Yaml × Yaml)) (js : List (Str × Json)),
    (stringKeyed es = true ∧ marshalMap bad (unmarshalStr .ifNeeded es) = some js) ↔ Spec.SameMap bad es js
  | [], js => by
    constructor
    · rintro ⟨_, h⟩; cases h; exact .nil
    · intro h; cases h; exact ⟨rfl, rfl⟩
  | (k, v) :: es, js => by
    rw [unmarshalStr, marshalMap]
    constructor
    · rintro ⟨hs, h⟩
      rcases k with (x | n) | l | l
      · have hs' : stringKeyed es = true := by simpa [stringKeyed, Yaml.text] using hs
        cases he : marshal bad (unmarshal .ifNeeded v) with
        | none => rw [he] at h; cases h
        | some j =>
          rw [he] at h
          cases hl : marshalMap bad (unmarshalStr .ifNeeded es) with
          | none => rw [hl] at h; cases h
          | some l =>
            rw [hl] at h
            cases h
            exact .cons ((marshal_same bad v j).1 he) ((marshalMap_same bad es l).1 ⟨hs', hl⟩)
      · simp [stringKeyed, Yaml.text] at hs
      · simp [stringKeyed, Yaml.text] at hs
      · simp [stringKeyed, Yaml.text] at hs
    · intro h
      cases h with
      | cons h1 h2 =>
        obtain ⟨hs, hl⟩ := (marshalMap_same bad es _).2 h2
        rw [(marshal_same bad v _).2 h1, hl]
        exact ⟨by simpa [stringKeyed, Yaml.text] using hs, rfl⟩
end

/-- C96: the program gives a document exactly if there is one that says the same, and then that, no matter which kind of maps
the YAML parser makes. -/
theorem C96_same (mk : Maker) (bad : Nat → Bool) (y : Yaml) (j : Json) : convert mk bad y = some j ↔ Spec.Same bad y j := by
  unfold convert
  rw [convert_eq, marshal_same]

/-- A document with a list and maps, and one with a number for a key deep inside. -/
example : convert .ifNeeded (fun _ => false) (.mapping [(.scalar (.str "a".toList), .seq [.mapping [(.scalar (.str "b".toList), .scalar (.other 1))]])]) =
    some (.obj [("a".toList, .arr [.obj [("b".toList, .scalar (.other 1))]])]) := by
  rw [C96_same]
  exact .mapping (.cons (.seq (.cons (.mapping (.cons (.other rfl) .nil)) .nil)) .nil)

example (mk : Maker) : convert mk (fun _ => false) (.mapping [(.scalar (.str "a".toList), .mapping [(.scalar (.other 1), .scalar (.other 2))])]) = none := by
  cases h : convert mk (fun _ => false) (.mapping [(.scalar (.str "a".toList), .mapping [(.scalar (.other 1), .scalar (.other 2))])]) with
  | none => rfl
  | some j =>
    rw [C96_same] at h
    cases h with
    | mapping h => cases h with
      | cons h => cases h with
        | mapping h => cases h

end Hiera.Yaml2Json
