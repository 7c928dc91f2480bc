/- C98: keys and locations as values. -/
import Verif.Model.AsValues


set_option autoImplicit false

namespace Hiera.AsValues

open Value

/-- What has which type. -/
inductive Spec.OfKind : Obj → Kind → Prop
  | key {s k} : newKey s = .ok k → OfKind (.key k) .key
  | path {o r e} : OfKind (.loc (.path o r e)) .path
  | glob {p} : OfKind (.loc (.glob p)) .glob
  | uri {o r} : OfKind (.loc (.uri o r)) .uri
  | mapped {s k t} : OfKind (.loc (.mapped s k t)) .mapped

/-- The fields that a hash has to have, with what they say. -/
inductive Spec.Says (get : Str → Option Value) : Loc → Prop
  | path {o r e} : get "original".toList = some (.str o) → get "resolved".toList = some (.str r) → get "exists".toList = some (.bool e) →
      Says get (.path o r e)
  | uri {o r} : get "original".toList = some (.str o) → get "resolved".toList = some (.str r) → Says get (.uri o r)
  | mapped {s k t} : get "sourceVar".toList = some (.str s) → get "key".toList = some (.str k) → get "template".toList = some (.str t) →
      Says get (.mapped s k t)

open AsValues.Spec

theorem bind_ok {α β : Type} {x : Res α} {f : α → Res β} {b : β} : x.bind f = .ok b ↔ ∃ a, x = .ok a ∧ f a = .ok b := by
  cases x <;> simp [Res.bind]

theorem textField_ok {es : Entries} {n t : Str} : textField es n = .ok t ↔ Entries.getS es n = some (.str t) := by
  unfold textField
  split <;> simp_all

theorem boolField_ok {es : Entries} {n : Str} {b : Bool} : boolField es n = .ok b ↔ Entries.getS es n = some (.bool b) := by
  unfold boolField
  cases b <;> split <;> simp_all

theorem newKey_source {s : Str} {k : Key} (h : newKey s = .ok k) : k.source = s := by
  unfold newKey at h
  split at h
  · cases h; rfl
  · cases h

/-- C98: locations are equal exactly if they are the same, and equal to nothing else. -/
theorem C98_locations (l : Loc) (o : Obj) : locEquals l o = true ↔ o = .loc l := by
  constructor
  · intro h
    unfold locEquals at h
    split at h <;> simp_all
  · rintro rfl
    cases l <;> simp [locEquals]

/-- C98: keys are equal exactly if they are the same, and equal to nothing else. -/
theorem C98_keys {s : Str} {k : Key} (h : newKey s = .ok k) (o : Obj) (ho : ∀ j, o = .key j → ∃ t, newKey t = .ok j) :
    keyEquals k o = true ↔ o = .key k := by
  constructor
  · intro he
    unfold keyEquals at he
    split at he
    · rename_i j
      obtain ⟨t, ht⟩ := ho j rfl
      have e := eq_of_beq he
      rw [newKey_source h, newKey_source ht] at e
      subst e
      rw [h] at ht
      cases ht
      rfl
    · cases he
  · rintro rfl
    simp [keyEquals]

/-- C98: locations that are equal have the same hash code, whatever the hash codes of texts are. -/
theorem C98_hash_partial (h : Str → BitVec 64) {a b : Loc} (he : locEquals a (.loc b) = true) : locHash h a = locHash h b ∧ (locHash h a).isSome := by
  cases (C98_locations a _).1 he
  cases a <;> exact ⟨rfl, rfl⟩

/-- C98 is false of keys: they have no hash code. -/
theorem C98_false : ∀ k, keyHash k = none := fun _ => rfl

/-- C98: what is turned into a value can be made of it again. -/
theorem C98_again (text : Value → Str) {o : Obj} {K : Kind} (h : OfKind o K) : ofValue text K (toValue o) = .ok o := by
  cases h with
  | key h =>
    show (newKey _).bind _ = _
    rw [newKey_source h, h]
    rfl
  | path => rfl
  | glob => rfl
  | uri => rfl
  | mapped => rfl

/-- C98: what can be made of a hash is what its fields say. -/
theorem C98_made (text : Value → Str) (K : Kind) (es : Entries) (l : Loc) :
    ofValue text K (.map es) = .ok (.loc l) ↔ Says (Entries.getS es) l ∧ OfKind (.loc l) K := by
  constructor
  · intro h
    cases K with
    | key =>
      unfold ofValue at h
      cases hk : newKey (text (.map es)) with
      | ok k => simp [hk, Res.bind] at h
      | panic e => simp [hk, Res.bind] at h
    | glob => cases h
    | path =>
      obtain ⟨o, ho, h⟩ := bind_ok.1 h
      obtain ⟨r, hr, h⟩ := bind_ok.1 h
      obtain ⟨e, he, h⟩ := bind_ok.1 h
      cases h
      exact ⟨.path (textField_ok.1 ho) (textField_ok.1 hr) (boolField_ok.1 he), .path⟩
    | uri =>
      obtain ⟨o, ho, h⟩ := bind_ok.1 h
      obtain ⟨r, hr, h⟩ := bind_ok.1 h
      cases h
      exact ⟨.uri (textField_ok.1 ho) (textField_ok.1 hr), .uri⟩
    | mapped =>
      obtain ⟨o, ho, h⟩ := bind_ok.1 h
      obtain ⟨r, hr, h⟩ := bind_ok.1 h
      obtain ⟨e, he, h⟩ := bind_ok.1 h
      cases h
      exact ⟨.mapped (textField_ok.1 ho) (textField_ok.1 hr) (textField_ok.1 he), .mapped⟩
  · rintro ⟨h, ho⟩
    cases h <;> cases ho <;> simp_all [ofValue, textField, boolField, Res.bind]

/-- C98: keys that are not equal may have the same segments: the text that they are from is compared. -/
theorem C98_same_segments : ∃ j k, newKey "a.b".toList = .ok j ∧ newKey "a.'b'".toList = .ok k ∧ j.parts = k.parts ∧ keyEquals j (.key k) = false :=
  ⟨⟨"a.b".toList, [.name "a".toList, .name "b".toList]⟩, ⟨"a.'b'".toList, [.name "a".toList, .name "b".toList]⟩,
    by decide +kernel, by decide +kernel, rfl, by decide⟩

example : OfKind (.key ⟨"a.b".toList, [.name "a".toList, .name "b".toList]⟩) .key := .key (s := "a.b".toList) (by decide +kernel)

example (text : Value → Str) : ofValue text .path (toValue (.loc (.path "a%{x}.yaml".toList "/h/data/ay.yaml".toList true))) =
    .ok (.loc (.path "a%{x}.yaml".toList "/h/data/ay.yaml".toList true)) := C98_again text .path

example : locHash (fun s => s.length) (.mapped "ab".toList "c".toList "def".toList) = some 96 := by decide

end Hiera.AsValues
