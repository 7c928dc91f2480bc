/- The encoding of requests to plugins. -/
import Verif.Spec.PluginCall

set_option autoImplicit false

namespace Hiera.Plugin

open Spec

theorem byte_cases {P : UInt8 → Prop} (h : ∀ n : Fin 256, P (UInt8.ofNat n.val)) (b : UInt8) : P b := by
  have := h ⟨b.toNat, UInt8.toNat_lt b⟩
  simpa using this

/-- What is sent for a byte neither ends a part of a form nor a name. -/
theorem escapeByte_safe (b : UInt8) : (0x26 : UInt8) ∉ escapeByte b ∧ (0x3D : UInt8) ∉ escapeByte b := by
  revert b
  refine byte_cases (P := fun b => (0x26 : UInt8) ∉ escapeByte b ∧ (0x3D : UInt8) ∉ escapeByte b) ?_
  decide +kernel

theorem escapeByte_digits (b : UInt8) : digitValue (hexDigit (b / 16)) = some (b / 16) ∧
    digitValue (hexDigit (b % 16)) = some (b % 16) ∧ 16 * (b / 16) + b % 16 = b := by
  revert b
  refine byte_cases (P := fun b => digitValue (hexDigit (b / 16)) = some (b / 16) ∧
    digitValue (hexDigit (b % 16)) = some (b % 16) ∧ 16 * (b / 16) + b % 16 = b) ?_
  decide +kernel

theorem decodePart_other (c : UInt8) (r : Octets) (h : c ≠ 0x25) :
    decodePart (c :: r) = (decodePart r).map ((if c = 0x2B then 0x20 else c) :: ·) := by
  rw [decodePart.eq_def]
  simp only [if_neg h]

theorem decodePart_hex (a b : UInt8) (r : Octets) : decodePart (0x25 :: a :: b :: r) =
    match digitValue a, digitValue b, decodePart r with
    | some x, some y, some z => some ((16 * x + y) :: z)
    | _, _, _ => none := by
  rw [decodePart.eq_def]
  rfl

theorem decodePart_escapeByte (b : UInt8) (r : Octets) : decodePart (escapeByte b ++ r) = (decodePart r).map (b :: ·) := by
  unfold escapeByte
  split
  · rename_i h
    have h1 : b ≠ 0x25 := by rintro rfl; revert h; decide
    have h2 : b ≠ 0x2B := by rintro rfl; revert h; decide
    rw [List.singleton_append, decodePart_other _ _ h1, if_neg h2]
  · split
    · rename_i h
      rw [List.singleton_append, decodePart_other _ _ (by decide), if_pos rfl, h]
    · obtain ⟨h1, h2, h3⟩ := escapeByte_digits b
      simp only [List.cons_append, List.nil_append, decodePart_hex, h1, h2]
      cases decodePart r <;> simp [h3]

/-- What is sent for a text is understood as that text. -/
theorem decodePart_escape (s : Octets) : decodePart (queryEscape s) = some s := by
  unfold queryEscape
  induction s with
  | nil => rfl
  | cons b s ih => rw [List.flatMap_cons, decodePart_escapeByte, ih]; rfl

theorem escape_safe (s : Octets) : (0x26 : UInt8) ∉ queryEscape s ∧ (0x3D : UInt8) ∉ queryEscape s := by
  unfold queryEscape
  constructor <;> intro h <;> obtain ⟨b, _, hb⟩ := List.mem_flatMap.mp h
  · exact (escapeByte_safe b).1 hb
  · exact (escapeByte_safe b).2 hb

theorem decodePair_escape (k v : Octets) : decodePair (queryEscape k ++ 0x3D :: queryEscape v) = some (k, v) := by
  have h1 : (queryEscape k ++ 0x3D :: queryEscape v).takeWhile (· ≠ 0x3D) = queryEscape k := by
    rw [List.takeWhile_append_of_pos]
    · simp
    · intro c hc
      simp only [ne_eq, decide_not, Bool.not_eq_eq_eq_not, Bool.not_true, decide_eq_false_iff_not]
      rintro rfl
      exact (escape_safe k).2 hc
  have h2 : (queryEscape k ++ 0x3D :: queryEscape v).dropWhile (· ≠ 0x3D) = 0x3D :: queryEscape v := by
    rw [List.dropWhile_append_of_pos]
    · simp
    · intro c hc
      simp only [ne_eq, decide_not, Bool.not_eq_eq_eq_not, Bool.not_true, decide_eq_false_iff_not]
      rintro rfl
      exact (escape_safe k).2 hc
  unfold decodePair
  rw [h1, h2, List.tail_cons, decodePart_escape, decodePart_escape]
  rfl

theorem pair_safe (k v : Octets) : (0x26 : UInt8) ∉ queryEscape k ++ 0x3D :: queryEscape v := by
  intro h
  rcases List.mem_append.mp h with h | h
  · exact (escape_safe k).1 h
  · rcases List.mem_cons.mp h with h | h
    · cases h
    · exact (escape_safe v).1 h

theorem encode_ne (p : Octets × Octets) (ps : List (Octets × Octets)) : encode (p :: ps) ≠ [] := by
  cases ps <;> simp [encode]

/-- Encoding loses nothing. -/
theorem decodeForm_encode (ps : List (Octets × Octets)) : decodeForm (encode ps) = some ps := by
  have key : ∀ ps : List (Octets × Octets), ps ≠ [] → ((encode ps).splitOn 0x26).mapM decodePair = some ps := by
    intro ps
    induction ps with
    | nil => exact fun h => absurd rfl h
    | cons p ps ih =>
      intro _
      obtain ⟨k, v⟩ := p
      cases ps with
      | nil =>
        rw [encode, List.splitOn_eq_singleton (pair_safe k v)]
        simp [decodePair_escape]
      | cons q qs =>
        rw [encode.eq_3 k v (q :: qs) (by simp), List.splitOn_append_cons_self_of_not_mem (pair_safe k v), List.mapM_cons, ih (by simp),
          decodePair_escape]
        rfl
  unfold decodeForm
  cases ps with
  | nil => rfl
  | cons p ps => rw [if_neg (encode_ne p ps)]; exact key _ (by simp)

theorem utf8_bytes (s : String) : utf8 s.toList = bytes s := by
  unfold utf8 bytes
  rw [String.ofList_toList]
  rfl

/-- Texts with the same bytes are the same. -/
theorem utf8_injective {a b : Str} (h : utf8 a = utf8 b) : a = b := by
  unfold utf8 at h
  have h1 : (String.ofList a).toByteArray = (String.ofList b).toByteArray := by
    rcases ha : (String.ofList a).toByteArray with ⟨⟨x⟩⟩
    rcases hb : (String.ofList b).toByteArray with ⟨⟨y⟩⟩
    rw [ha, hb] at h
    simp at h
    rw [h]
  have h2 := String.toByteArray_inj.mp h1
  have h3 := congrArg String.toList h2
  simpa using h3

theorem takeWhile_all {α : Type} (p : α → Bool) (l : List α) (h : ∀ x ∈ l, p x = true) : l.takeWhile p = l := by
  induction l with
  | nil => rfl
  | cons x l ih => rw [List.takeWhile_cons_of_pos (h x List.mem_cons_self), ih (fun y hy => h y (List.mem_cons_of_mem _ hy))]

theorem dropWhile_all {α : Type} (p : α → Bool) (l : List α) (h : ∀ x ∈ l, p x = true) : l.dropWhile p = [] := by
  induction l with
  | nil => rfl
  | cons x l ih => rw [List.dropWhile_cons_of_pos (h x List.mem_cons_self), ih (fun y hy => h y (List.mem_cons_of_mem _ hy))]

theorem urlPath_plain (t name : Str) (ht : '?' ∉ t ∧ '#' ∉ t) (hn : '?' ∉ name ∧ '#' ∉ name) :
    urlPath t name = '/' :: t ++ '/' :: name := by
  unfold urlPath
  refine takeWhile_all _ _ ?_
  intro c hc
  simp only [List.cons_append, List.mem_cons, List.mem_append] at hc
  have : c ≠ '?' ∧ c ≠ '#' := by
    constructor
    · rintro rfl
      rcases hc with h | h | h | h
      · cases h
      · exact ht.1 h
      · cases h
      · exact hn.1 h
    · rintro rfl
      rcases hc with h | h | h | h
      · cases h
      · exact ht.2 h
      · cases h
      · exact hn.2 h
  simp [this.1, this.2]

end Hiera.Plugin
