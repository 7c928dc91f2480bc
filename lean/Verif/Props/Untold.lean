/- C109: values from overrides and defaults are told. They are not: what an explainer is told does not depend on these. -/
import Verif.Props.ExplainPage
import Verif.Props.Api

set_option autoImplicit false

namespace Hiera
open Value Spec World

/-- A line of the text tells of the value. -/
def Spec.TellsOf (p : List PageLine) (v : Value) : Prop := ∃ l ∈ p, Sum.inr v ∈ l.2

/-- C109: a value in the overrides is given, and nothing is told of it: the explanation is what it was before. -/
theorem C109_override (T : Types) (rec : Rec) (names : List Str) (t : Option Nat) (dv : Option Value) (override defaults : Option Entries)
    (opts : Entries) (df : Option (M Value)) (ho : ∀ es, override = some es → UniqueKeys es) {v : Value} (h : FirstIn names override v)
    {s u : St} {r : Res (Option Value)} (hl : lookup2 T rec names t dv override defaults opts df s = some (r, u)) : u.tree = s.tree := by
  unfold lookup2 at hl
  rw [(lookupInMap_some ho _ _).2 h] at hl
  simp only [typed_deliver] at hl
  cases hl
  rfl

/-- What `Lookup2` leaves when no override has any of the names: what it leaves without any defaults. -/
theorem lookup2_left (T : Types) (rec : Rec) (names : List Str) (t : Option Nat) (dv : Option Value) (override defaults : Option Entries)
    (opts : Entries) (ho : ∀ es, override = some es → UniqueKeys es) (hn : NoneIn names override)
    {s u : St} {r : Res (Option Value)} (hl : lookup2 T rec names t dv override defaults opts none s = some (r, u)) :
    ∃ r', lookupNames rec opts names s = some (r', u) := by
  unfold lookup2 at hl
  rw [(lookupInMap_none ho _).2 hn] at hl
  simp only at hl
  cases h2 : lookupNames rec opts names s with
  | none => rw [bind_none h2] at hl; cases hl
  | some q =>
    obtain ⟨x, w⟩ := q
    cases x with
    | panic e => rw [bind_panic h2] at hl; cases hl; exact ⟨_, rfl⟩
    | ok o =>
      rw [bind_ok h2] at hl
      cases o with
      | some v => simp only [typed_deliver] at hl; cases hl; exact ⟨_, rfl⟩
      | none =>
        simp only at hl
        cases h3 : lookupInMap names defaults with
        | some v => simp only [h3, typed_deliver] at hl; cases hl; exact ⟨_, rfl⟩
        | none =>
          cases dv with
          | some v => simp only [h3, typed_deliver] at hl; cases hl; exact ⟨_, rfl⟩
          | none => simp only [h3] at hl; cases hl; exact ⟨_, rfl⟩

/-- C109: whatever the defaults and the default value are, the explanation is the same. -/
theorem C109_default (T : Types) (rec : Rec) (names : List Str) (t t' : Option Nat) (dv dv' : Option Value) (defaults defaults' : Option Entries)
    (opts : Entries) {s u u' : St} {r r' : Res (Option Value)} (h : lookup2 T rec names t dv none defaults opts none s = some (r, u))
    (h' : lookup2 T rec names t' dv' none defaults' opts none s = some (r', u')) : u = u' := by
  obtain ⟨x, hx⟩ := lookup2_left T rec names t dv none defaults opts nofun (fun _ h => nomatch h) h
  obtain ⟨y, hy⟩ := lookup2_left T rec names t' dv' none defaults' opts nofun (fun _ h => nomatch h) h'
  rw [hx] at hy
  cases hy
  rfl

theorem lookupAllLoop_untold (T : Types) (rec : Rec) (tm : Option (Str → Option Nat)) {override : Option Entries} (defaults : Option Entries)
    (opts : Entries) : ∀ (names : List Str) (acc : Entries), (∀ name ∈ names, ∃ v, lookupInMap [name] override = some v) →
    ∀ {s u : St} {r : Res Entries}, lookupAllLoop T rec tm override defaults opts names acc s = some (r, u) → u = s
  | [], _, _, _, _, _, hl => by cases hl; rfl
  | name :: names, acc, h, s, u, r, hl => by
    obtain ⟨v, hv⟩ := h name (by simp)
    have e : lookupForAll rec override defaults opts name s = some (.ok (some v), s) := by
      unfold lookupForAll
      rw [hv]
      rfl
    rw [lookupAllLoop, bind_ok e] at hl
    simp only at hl
    cases ht : ensureTypeFromMap T tm name v with
    | ok w =>
      have e' : (lift (ensureTypeFromMap T tm name v)) s = some (.ok w, s) := by rw [ht]; rfl
      rw [ht] at e'
      rw [ht, bind_ok e'] at hl
      exact lookupAllLoop_untold T rec tm defaults opts names _ (fun n hn => h n (by simp [hn])) hl
    | panic e =>
      rw [ht] at hl
      cases hl
      rfl

/-- C109: likewise for a hash of values, all of which are in the overrides. -/
theorem C109_all (T : Types) (rec : Rec) (names : List Str) (tm : Option (Str → Option Nat)) (override defaults : Option Entries) (opts : Entries)
    (ho : ∀ es, override = some es → UniqueKeys es) (h : ∀ name ∈ names, ∃ v, FirstIn [name] override v) {s u : St} {r : Res Value}
    (hl : lookupAll T rec names tm override defaults opts s = some (r, u)) : u.tree = s.tree := by
  have h' : ∀ name ∈ names, ∃ v, lookupInMap [name] override = some v := fun n hn =>
    (h n hn).imp fun _ hv => (lookupInMap_some ho _ _).2 hv
  unfold lookupAll at hl
  cases hq : lookupAllLoop T rec tm override defaults opts names [] s with
  | none => rw [bind_none hq] at hl; cases hl
  | some q =>
    obtain ⟨x, w⟩ := q
    have hw := lookupAllLoop_untold T rec tm defaults opts names [] h' hq
    cases x with
    | ok es => rw [bind_ok hq] at hl; cases hl; rw [hw]
    | panic e => rw [bind_panic hq] at hl; cases hl; rw [hw]

/-! A concrete case: `a` is in the data, `b` in the overrides, `c` in the defaults, and there is a default value. -/

def untoldTypes : Types := { apiTypes with env := mk (cfg [entry "a" "a.yaml"]) [("/h/data/a.yaml".toList, .map [(s "a", .int 1)])] }

/-- The answer, the lines of the text with `*` for a value, and the values in the text. -/
def untoldAsk (names : List String) : Option (Res (Option Value) × List Str × List Value) :=
  match lookup2 untoldTypes (eval untoldTypes.env 8) (names.map String.toList) none (some (.int 9)) (some [(s "b", .int 7)])
      (some [(s "c", .int 8)]) [] none (st [] (some ⟨false, false⟩)) with
  | some (r, t) => match t.tree with
    | .at root _ => some (r, (outline 0 root).map pageText, (outline 0 root).flatMap fun l => l.2.filterMap fun | .inr v => some v | .inl _ => none)
    | _ => none
  | none => none

example : untoldAsk ["a"] = some (.ok (some (.int 1)), [
    "Searching for \"a\"",
    "  data_hash function 'yaml_data'",
    "    Path \"/h/data/a.yaml\"",
    "      Original path: \"a.yaml\"",
    "      Found key: \"a\" value: *"].map String.toList, [.int 1]) := by decide +kernel

example : untoldAsk ["b"] = some (.ok (some (.int 7)), [], []) ∧
    untoldAsk ["c"] = some (.ok (some (.int 8)), [
      "Searching for \"c\"",
      "  data_hash function 'yaml_data'",
      "    Path \"/h/data/a.yaml\"",
      "      Original path: \"a.yaml\"",
      "      No such key: \"c\""].map String.toList, []) ∧
    (untoldAsk ["x"]).map Prod.fst = some (.ok (some (.int 9))) := by decide +kernel

/-- C109, as it should be: with an explainer, the text tells of the value that is given. -/
def Spec.ToldOfAll : Prop := ∀ (T : Types) (n : Nat) (names : List Str) (dv : Option Value) (override defaults : Option Entries) (v : Value) (u : St)
  (root : Node), lookup2 T (eval T.env n) names none dv override defaults [] none (st [] (some ⟨false, false⟩)) = some (.ok (some v), u) →
  u.tree = .at root [] → TellsOf (outline 0 root) v

/-- C109 is false of the code: nothing is told of a value in the overrides. -/
theorem C109_false : ¬ ToldOfAll := by
  intro h
  have e : lookup2 untoldTypes (eval untoldTypes.env 8) ["b".toList] none (some (.int 9)) (some [(s "b", .int 7)]) (some [(s "c", .int 8)]) [] none
      (st [] (some ⟨false, false⟩)) = some (.ok (some (.int 7)), st [] (some ⟨false, false⟩)) := rfl
  obtain ⟨l, hl, _⟩ := h _ _ _ _ _ _ _ _ _ e rfl
  cases hl

end Hiera
