/- C114: keys and variables that are given other names. -/
import Verif.Spec.Renamed
import Verif.Props.Apart

set_option autoImplicit false
set_option linter.unusedSectionVars false

namespace Hiera
open Value Spec World

section
variable {E E' : Env} (hren : E'.render = E.render) {sc sc' : Scope} {ans ans' : Str → Option Value} {f g : Str → Str}
include hren

theorem textValue_renamed : ∀ ps : List DataPiece, (∀ x fs, DataPiece.var x fs ∈ ps → sc'.get (g x) = sc.get x) →
    (∀ x fs, DataPiece.key x fs ∈ ps → ans x = ans' (f x)) → textValue E' sc' ans' (ps.map (DataPiece.renamed f g)) = textValue E sc ans ps
  | [], _, _ => rfl
  | p :: ps, h1, h2 => by
    have ih := textValue_renamed ps (fun x fs hx => h1 x fs (List.mem_cons_of_mem _ hx)) (fun x fs hx => h2 x fs (List.mem_cons_of_mem _ hx))
    rw [List.map_cons]
    cases p with
    | text t => rw [DataPiece.renamed, textValue, textValue, ih]
    | var x fs => rw [DataPiece.renamed, textValue, textValue, ih, h1 x fs (List.mem_cons_self ..), textIn_env hren]
    | key x fs => rw [DataPiece.renamed, textValue, textValue, ih, h2 x fs (List.mem_cons_self ..), textIn_env hren]

mutual
theorem value_renamed : ∀ t : Template, (∀ x fs, DataPiece.var x fs ∈ t.uses → sc'.get (g x) = sc.get x) →
    (∀ x fs, DataPiece.key x fs ∈ t.uses → ans x = ans' (f x)) → valueT E' sc' ans' (t.renamed f g) = valueT E sc ans t
  | .plain _, _, _ => rfl
  | .text ps, h1, h2 => by
    rw [Template.uses] at h1 h2
    rw [Template.renamed, valueT, valueT, textValue_renamed hren ps h1 h2]
  | .alias x fs, _, h2 => by
    rw [Template.uses] at h2
    rw [Template.renamed, valueT, valueT, h2 x fs (List.mem_singleton.2 rfl)]
  | .arr ts, h1, h2 => by
    rw [Template.uses] at h1 h2
    rw [Template.renamed, valueT, valueT, valueL_renamed ts h1 h2]
  | .map es, h1, h2 => by
    rw [Template.uses] at h1 h2
    rw [Template.renamed, valueT, valueT, valueE_renamed es h1 h2]
theorem valueL_renamed : ∀ ts : List Template, (∀ x fs, DataPiece.var x fs ∈ usesL ts → sc'.get (g x) = sc.get x) →
    (∀ x fs, DataPiece.key x fs ∈ usesL ts → ans x = ans' (f x)) → valueL E' sc' ans' (renamedL f g ts) = valueL E sc ans ts
  | [], _, _ => rfl
  | t :: ts, h1, h2 => by
    rw [usesL] at h1 h2
    rw [renamedL, valueL, valueL, value_renamed t (fun x fs hx => h1 x fs (List.mem_append_left _ hx)) (fun x fs hx => h2 x fs (List.mem_append_left _ hx)),
      valueL_renamed ts (fun x fs hx => h1 x fs (List.mem_append_right _ hx)) (fun x fs hx => h2 x fs (List.mem_append_right _ hx))]
theorem valueE_renamed : ∀ es : List (Str × Template), (∀ x fs, DataPiece.var x fs ∈ usesE es → sc'.get (g x) = sc.get x) →
    (∀ x fs, DataPiece.key x fs ∈ usesE es → ans x = ans' (f x)) → valueE E' sc' ans' (renamedE f g es) = valueE E sc ans es
  | [], _, _ => rfl
  | (k, t) :: es, h1, h2 => by
    rw [usesE] at h1 h2
    rw [renamedE, valueE, valueE, value_renamed t (fun x fs hx => h1 x fs (List.mem_append_left _ hx)) (fun x fs hx => h2 x fs (List.mem_append_left _ hx)),
      valueE_renamed es (fun x fs hx => h1 x fs (List.mem_append_right _ hx)) (fun x fs hx => h2 x fs (List.mem_append_right _ hx))]
end
end

namespace Spec

/-- The data of a key is the same, under another name and with other names in it, and is merged in the same way; the variables in it
have the same values. -/
structure RenamedTo (L L' : Layout) (E : Env) (sc : Scope) (ls : List Sheet) (K : Str → Prop) (E' : Env) (sc' : Scope) (ls' : List Sheet) (K' : Str → Prop)
    (f g : Str → Str) (k : Str) : Prop where
  merged : ∀ st, MergedBy (ls.map Sheet.level) k [] st → MergedBy (ls'.map Sheet.level) (f k) [] st
  mergeable : Referred L E sc ls K k → Referred L' E' sc' ls' K' (f k)
  data : templatesOf ls' (f k) = (templatesOf ls k).map (Template.renamed f g)
  vars : ∀ t ∈ templatesOf ls k, ∀ x fs, DataPiece.var x fs ∈ t.uses → sc'.get (g x) = sc.get x

end Spec

theorem renamedL_map {f g : Str → Str} : ∀ ts : List Template, renamedL f g ts = ts.map (Template.renamed f g)
  | [] => rfl
  | t :: ts => by rw [renamedL, renamedL_map ts, List.map_cons]

/-- C114: if keys, and everything that refers to them, are given other names, and so are variables, then lookups of the keys under their
other names give what they gave before. -/
theorem C114_renamed {E E' : Env} (he : StatelessEnv E) (he' : StatelessEnv E') (hren : E'.render = E.render) {s s' : St} (hs : Session E s) (hs' : Session E' s')
    (hl : s.v.locked = []) (hl' : s'.v.locked = []) {L L' : Layout} {sc sc' : Scope} {ls ls' : List Sheet} {K K' : Str → Prop} {rank rank' : Str → Nat} {f g : Str → Str}
    {root st : Str} {opts : Entries} (hq : AskedOf L E sc ls K rank root opts st) (hq' : AskedOf L' E' sc' ls' K' rank' (f root) opts st)
    (hk : ∀ k, K k → RenamedTo L L' E sc ls K E' sc' ls' K' f g k)
    (src src' : Str) (fs : List Str) (ex ex' : Option ExplOpts) (r : Res (Option Value)) :
    Gives E' (nextInvocation s' sc' ex') ⟨src', .name (f root) :: fs.map .name⟩ opts r ↔
    Gives E (nextInvocation s sc ex) ⟨src, .name root :: fs.map .name⟩ opts r := by
  refine alike_answers he he' hs hs' hl hl' hq hq' (fun k h => (hk k h).merged) (fun k h => (hk k h).mergeable)
    (fun ans ans' _ k hK ha => ?_) src src' fs ex ex' r
  rw [(hk k hK).data, ← renamedL_map]
  refine valueL_renamed hren _ (fun x fs hx => ?_) (fun x fs hx => ?_)
  · obtain ⟨t, h1, h2⟩ := mem_uses hx
    exact (hk k hK).vars t h1 x fs h2
  · obtain ⟨t, h1, h2⟩ := mem_uses hx
    exact ha t h1 x fs h2

namespace Renamed114

/-- The names before and after. -/
def host (b : Bool) : Str := if b then "site::host".toList else "app::host".toList
def url (b : Bool) : Str := if b then "site::url".toList else "app::url".toList
def node (b : Bool) : Str := if b then "machine".toList else "node".toList

def data (b : Bool) : List (Str × Template) := [
  (host b, .text [.var (node b) [], .text ".example.com".toList]),
  (url b, .arr [.text [.text "http://".toList, .key (host b) []], .alias (host b) []])]

def sheets (b : Bool) : List Sheet := [⟨"nodes".toList, [.text "nodes/".toList, .var (node b) [], .text ".yaml".toList], some (data b)⟩]

def world (b : Bool) : Env :=
  { mk (configOf ((sheets b).map Sheet.level)) [("/h/data/nodes/web.yaml".toList, .map (writtenE (data b)))] with
    top := .mux, muxFns := some [.config, .env], render := fun _ => [] }

def scope (b : Bool) : Scope := .map [(.str (node b), s "web")]

def keys (b : Bool) : List Str := [host b, url b]

def rank (b : Bool) (k : Str) : Nat := if k = url b then 1 else 0

theorem stateless (b : Bool) : StatelessEnv (world b) := by
  refine ⟨.inr ⟨rfl, [.env], rfl, by simp⟩, fun fs f h hf => ?_, (fun _ _ h => nomatch h), (fun _ _ _ h => nomatch h)⟩
  cases h
  rcases List.mem_cons.1 hf with h | h
  · subst h; trivial
  · rw [List.mem_singleton.1 h]; trivial

theorem scope_get {b : Bool} {x : Str} {v : Value} (h : (scope b).get x = some v) : v = s "web" := by
  obtain ⟨e, he, _, rfl⟩ := Entries.get_mem (show Entries.get [(.str (node b), s "web")] (.str x) = some v from h)
  cases List.mem_singleton.1 he
  rfl

theorem ordinary (b : Bool) : Ordinary (world b) (scope b) ((sheets b).map Sheet.level) where
  config := rfl
  named := by cases b <;> decide
  distinct := by cases b <;> decide
  paths := by
    intro l hl
    simp only [sheets, List.map_cons, List.map_nil, List.mem_cons, List.not_mem_nil, or_false] at hl
    subst hl
    refine ⟨by cases b <;> decide, fun p hp => ?_⟩
    simp only [Sheet.level, List.mem_cons, List.not_mem_nil, or_false] at hp
    rcases hp with rfl | rfl | rfl
    · show '%' ∉ _; decide
    · exact ⟨by cases b <;> exact ⟨by decide, by decide⟩, fun f hf => nomatch hf⟩
    · show '%' ∉ _; decide
  vars := by
    intro l _ x fs _ v hv
    rw [scope_get hv]
    exact unmarked_of_marked (by decide)
  dataDir := fun h => by have := (hasMarker_iff _).2 h; revert this; cases b <;> decide
  pluginDir := fun h => by have := (hasMarker_iff _).2 h; revert this; cases b <;> decide
  there := by
    intro l hl es he
    simp only [sheets, List.map_cons, List.map_nil, List.mem_cons, List.not_mem_nil, or_false] at hl
    subst hl
    cases he
    have hf : Level.file (world b) (scope b) (Sheet.level ⟨"nodes".toList, [.text "nodes/".toList, .var (node b) [], .text ".yaml".toList],
      some (data b)⟩) = "/h/data/nodes/web.yaml".toList := by cases b <;> decide +kernel
    rw [hf]
    refine ⟨by cases b <;> decide +kernel, by cases b <;> rfl, ?_⟩
    cases b <;> simp [Value.WF, WFEntries, WFList, data, writtenE, writtenL, Template.written, host, url]
  absent := by
    have : ∀ l ∈ (sheets b).map Sheet.level, l.data.isNone = true → (world b).stat (l.file (world b) (scope b)) = false := by cases b <;> decide +kernel
    exact fun l hl h => this l hl (by rw [h]; rfl)

theorem part {b : Bool} {x : Str} (h : x ∈ keys b) : RefPart x := by
  simp only [keys, List.mem_cons, List.not_mem_nil, or_false] at h
  rcases h with rfl | rfl <;> cases b <;>
    exact ⟨⟨by unfold Unquoted; decide, by decide, alpha_not_int (by decide)⟩, by decide⟩

theorem options (b : Bool) : valuesOf ((sheets b).map Sheet.level) "lookup_options".toList = [] := by cases b <;> decide +kernel

theorem ofHost (b : Bool) : templatesOf (sheets b) (host b) = [.text [.var (node b) [], .text ".example.com".toList]] := by cases b <;> rfl
theorem ofUrl (b : Bool) : templatesOf (sheets b) (url b) =
    [.arr [.text [.text "http://".toList, .key (host b) []], .alias (host b) []]] := by cases b <;> rfl

theorem written {b : Bool} {k : Str} (hk : k ∈ keys b) : ∀ t ∈ templatesOf (sheets b) k, t.Ok := by
  have hp : (DataPiece.key (host b) []).Ok := ⟨part (b := b) (by simp [keys]), fun _ h => nomatch h⟩
  simp only [keys, List.mem_cons, List.not_mem_nil, or_false] at hk
  rcases hk with rfl | rfl
  · rw [ofHost]
    simp only [List.mem_cons, List.not_mem_nil, or_false, forall_eq, Template.Ok, forall_eq_or_imp]
    exact ⟨⟨by cases b <;> exact ⟨by decide, by decide⟩, fun _ h => nomatch h⟩, by show '%' ∉ _; decide⟩
  · rw [ofUrl]
    simp only [List.mem_cons, List.not_mem_nil, or_false, forall_eq, Template.Ok, forall_eq_or_imp, OkL, and_true]
    exact ⟨⟨by show '%' ∉ _; decide, hp⟩, part (b := b) (by simp [keys]), fun _ h => nomatch h⟩

theorem merged {b : Bool} {k st : Str} (h : MergedBy ((sheets b).map Sheet.level) k [] st) : st = "first".toList := by
  cases h with
  | asked h => cases h
  | said _ h => rw [options] at h; cases h
  | default => rfl

theorem byFirst (b : Bool) (k : Str) : MergedBy ((sheets b).map Sheet.level) k [] "first".toList := .default rfl (by rw [options]; rfl)

theorem first (vs : List Value) : Mergeable "first".toList vs := ⟨by decide, fun h => absurd h (by decide), fun h => absurd h (by decide)⟩

theorem referring (b : Bool) : Referring (world b) (scope b) (sheets b) (· ∈ keys b) (rank b) where
  setup := ordinary b
  rendered := fun _ _ h => nomatch h
  options := by rw [options]; exact fun _ h => nomatch h
  legible := fun k hk => {
    part := (part hk).1
    ordinary := by
      simp only [keys, List.mem_cons, List.not_mem_nil, or_false] at hk
      rcases hk with rfl | rfl <;> cases b <;> decide
    written := written hk
    vars := fun _ _ _ _ _ v h => by
      rw [scope_get h]
      intro t ht
      cases ht
      decide
    options := by rw [options]; exact fun _ h => nomatch h }
  refs := by
    have hh : host b ∈ keys b := by simp [keys]
    have hr : rank b (host b) < rank b (url b) := by cases b <;> decide
    intro k hk t ht x fs hx
    simp only [keys, List.mem_cons, List.not_mem_nil, or_false] at hk
    rcases hk with rfl | rfl
    · rw [ofHost] at ht
      cases List.mem_singleton.1 ht
      simp [Template.uses] at hx
    · rw [ofUrl] at ht
      cases List.mem_singleton.1 ht
      simp only [Template.uses, usesL, List.append_nil, List.cons_append, List.nil_append, List.mem_cons, List.not_mem_nil, or_false, reduceCtorEq, false_or, DataPiece.key.injEq, or_self] at hx
      obtain ⟨rfl, rfl⟩ := hx
      exact ⟨hh, hr, fun vs st _ h => merged h ▸ first vs⟩

theorem asked {b : Bool} {k : Str} (hk : k ∈ keys b) : AskedOf .levels (world b) (scope b) (sheets b) (· ∈ keys b) (rank b) k [] "first".toList where
  setup := referring b
  top := rfl
  functions := rfl
  ordinary := by
    intro k hk
    simp only [keys, List.mem_cons, List.not_mem_nil, or_false] at hk
    rcases hk with rfl | rfl <;> cases b <;> exact ⟨by decide, by decide⟩
  key := hk
  merged := byFirst b k
  mergeable := fun vs _ => first vs

def newName (k : Str) : Str := if k = host false then host true else if k = url false then url true else k
def newVar (x : Str) : Str := if x = node false then node true else x

theorem renamedTo {k : Str} (hk : k ∈ keys false) :
    RenamedTo .levels .levels (world false) (scope false) (sheets false) (· ∈ keys false) (world true) (scope true) (sheets true) (· ∈ keys true) newName newVar k where
  merged := fun _ h => merged h ▸ byFirst true _
  mergeable := by
    refine fun _ => ⟨?_, fun vs st _ h => merged h ▸ first vs⟩
    simp only [keys, List.mem_cons, List.not_mem_nil, or_false] at hk
    rcases hk with rfl | rfl <;> decide
  data := by
    simp only [keys, List.mem_cons, List.not_mem_nil, or_false] at hk
    rcases hk with rfl | rfl
    · rw [ofHost, show newName (host false) = host true from by decide, ofHost]; rfl
    · rw [ofUrl, show newName (url false) = url true from by decide, ofUrl]; rfl
  vars := by
    intro t ht x fs hx
    simp only [keys, List.mem_cons, List.not_mem_nil, or_false] at hk
    rcases hk with rfl | rfl
    · rw [ofHost] at ht
      cases List.mem_singleton.1 ht
      simp only [Template.uses, List.mem_cons, List.not_mem_nil, or_false, reduceCtorEq, DataPiece.var.injEq] at hx
      obtain ⟨rfl, rfl⟩ := hx
      decide
    · rw [ofUrl] at ht
      cases List.mem_singleton.1 ht
      simp [Template.uses, usesL] at hx

/-- `site::url` is what `app::url` was, with another variable for the name of the node. -/
example (src src' : Str) (fs : List Str) (ex ex' : Option ExplOpts) (r : Res (Option Value)) :
    Gives (world true) (newInvocation (scope true) ex') ⟨src', .name "site::url".toList :: fs.map .name⟩ [] r ↔
    Gives (world false) (newInvocation (scope false) ex) ⟨src, .name "app::url".toList :: fs.map .name⟩ [] r :=
  C114_renamed (K := (· ∈ keys false)) (K' := (· ∈ keys true)) (f := newName) (g := newVar) (root := "app::url".toList)
    (stateless false) (stateless true) rfl (.start (scope false) none) (.start (scope true) none) rfl rfl
    (rank := rank false) (rank' := rank true) (st := "first".toList) (asked (by decide)) (asked (by decide)) (fun _ => renamedTo) src src' fs ex ex' r

/-- The answer under the new name. -/
example : Gives (world true) (newInvocation (scope true) none) ⟨"site::url".toList, [.name "site::url".toList]⟩ []
    (.ok (some (.arr [s "http://web.example.com", s "web.example.com"]))) :=
  (C81_answer (world true) (stateless true) (.start (scope true) none) rfl (scope true) none _ [] _).2 (answer_of (n := 1) (m := 8) (by decide +kernel))

end Renamed114

end Hiera
