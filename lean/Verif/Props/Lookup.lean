/-
  Properties of lookups: what is asked, in which order, and what never is.
-/
import Verif.Lemmas.Lookup
import Verif.Lemmas.NonInterf
import Verif.Lemmas.World
import Verif.Props.Interp
import Verif.Props.Key
import Verif.Props.Merge

set_option autoImplicit false

namespace Hiera
open Spec World

/-! ### C23: the key `lookup_options` -/

/-- A lookup of a key whose first segment is `lookup_options` finds nothing, whatever the top provider, the data, the
options and the state; nothing but the explanation changes, in particular nothing is read or called. -/
theorem C23_hidden (E : Env) (n : Nat) (k : Key) (o : Entries) (st : St) (hk : k.root = "lookup_options".toList)
    (ht : st.on = none ∨ ∃ cur ups, st.tree = .at cur ups) :
    ∃ t, (eval E (n + 1)).lookup k o st = some (.ok none, t) ∧ t.v = st.v ∧ t.on = st.on := by
  show ∃ t, lookup E (eval E n) k o st = _ ∧ _
  unfold lookup
  rw [if_pos hk]
  by_cases ho : st.on = none
  · refine ⟨st, ?_, rfl, rfl⟩
    rw [Quiet.off_withNode ho, bind_ok (Quiet.off_report ho)]
    rfl
  · rcases ht with ht | ⟨cur, ups, ht⟩
    · exact absurd ht ho
    · have hi : ¬st.on.isNone = true := by simpa using ho
      unfold withNode
      rw [if_neg hi, ht]
      simp only [Tree.push]
      rw [bind_def]
      unfold report
      rw [if_neg (by simpa using ho)]
      simp only [Tree.accept, pure_def, Tree.pop]
      exact ⟨_, rfl, rfl, rfl⟩

/-- The keys concerned: those written as segments joined with dots whose first segment denotes `lookup_options`, however
it is quoted. -/
theorem C23_keys (segs : List Segment) (seg : Segment) (hok : ∀ s ∈ seg :: segs, ∀ p ∈ s, p.Ok)
    (hs : segContent seg = "lookup_options".toList) (k : Key) (h : newKey (keyText (seg :: segs)) = .ok k) :
    k.root = "lookup_options".toList := (root_of_text hok h).trans hs

/-- An interpolated lookup of such a key yields the empty string. -/
theorem C23_interpolated (E : Env) (n : Nat) (e x name arg : Str) (k : Key) (hc : '}' ∉ e) (hx : Trimmed e x)
    (hcall : Call x name arg) (hn : name = "lookup".toList ∨ name = "hiera".toList) (hkey : newKey arg = .ok k)
    (hk : k.root = "lookup_options".toList) (st : St) (ho : st.on = none) :
    ∃ t, interpolate E (eval E (n + 1)) true (.str ("%{".toList ++ e ++ "}".toList)) st = some (.ok (some (.str [])), t) ∧
      t.v = st.v := by
  obtain ⟨t, h1, h2, h3⟩ := C23_hidden E n k [] st hk (.inl ho)
  refine ⟨t, ?_, h2⟩
  rw [C16_lookup E (n + 1) e x name arg hc hx hcall hn st ho, hkey, M.lift_ok_bind, bind_ok h1]
  rfl

/-! Concrete cases: data with lookup options, asked for directly, by sub-key, quoted and interpolated. -/

/-- The root data file has lookup options, and a value that refers to them. -/
def optionsWorld : Env := two [(s "lookup_options", .map [(s "x", .map [(s "merge", s "deep")])]), (s "x", s "%{lookup('lookup_options')}!")] []

example : ((eval optionsWorld 10).lookup ⟨"lookup_options".toList, [.name "lookup_options".toList]⟩ [] (st [])).map Prod.fst =
    some (.ok none) := by decide +kernel
example : (match newKey "'lookup_options'.x".toList with
    | .ok k => ((eval optionsWorld 10).lookup k [] (st [])).map Prod.fst
    | .panic e => some (.panic e)) = some (.ok none) := by decide +kernel
example : ask optionsWorld 10 "x" = some (.ok (some (s "!"))) := by decide +kernel

/-! ### C30 and C31: the order of the search -/


/-- C30: with the strategy `first`, the search through a hierarchy asks the existing locations of the first entry from left
to right, then those of the second entry, and so on; the first one that has a value (or fails) decides, and the others are
not asked: the search ends in the state in which the deciding one left it. -/
theorem C30_order (E : Env) (n : Nat) (k : Key) (ps : List Prov) (st t : St) (r : Res (Option Value)) (ho : st.on = none) :
    mergeHierarchy E (eval E n) k ps .first st = some (r, t) ↔
      FirstAnswer (fun pl => provLookup E (eval E n) pl.1 pl.2 k) (ps.flatMap places) st r t :=
  mergeHierarchy_first E n k ps st t r ho

/-- C30: the same with an explainer; everything but the explanation is left as without one. -/
theorem C30_explained (E : Env) (n : Nat) (k : Key) (ps : List Prov) (v : View) (x : ExplOpts) (cur : Node) (ups : List Node)
    (t : St) (a : Option Value) (h : mergeHierarchy E (eval E n) k ps .first ⟨v, some x, .at cur ups⟩ = some (.ok a, t)) :
    ∃ t', t'.v = t.v ∧ FirstAnswer (fun pl => provLookup E (eval E n) pl.1 pl.2 k) (ps.flatMap places) ⟨v, none, .new⟩ (.ok a) t' := by
  have hn := (NI.closed E).mergeHierarchy (NI.eval E n) k ps .first ⟨v, some x, .at cur ups⟩ ⟨v, none, .new⟩ rfl
    (isAt_at _ _) (isAt_at _ _)
  rcases hn.elim with ⟨h1, h2⟩ | ⟨b, u, u', h1, h2, h3, h4, h5⟩ | ⟨e', u, u', h1, h2, h4, h5⟩
  · rw [h1] at h; cases h
  · rw [h1] at h; cases h
    exact ⟨u', h3.symm, (C30_order E n k ps _ _ _ rfl).1 h2⟩
  · rw [h1] at h; cases h

/-- C30: for any strategy, if the places have given outcomes (whatever else they do, keeping some invariant), then the
result is that of merging over the entries the results of merging over their locations. (C07–C13 tell what merging given
outcomes does.) An entry with a single location is not merged over it. -/
theorem C30_merged (E : Env) (rec : Rec) (k : Key) (ps : List Prov) (s : Strategy) (I : St → Prop)
    (hI : ∀ s, I s → s.on = none) (g : Prov × Option Loc → Res (Option Value))
    (h : ∀ p ∈ ps, ∀ pl ∈ places p, Does I (provLookup E rec pl.1 pl.2 k) (g pl)) :
    Does I (mergeHierarchy E rec k ps s) (runMerge s ps (fun p => match p.entry.locations with
      | none => g (p, none)
      | some [l] => if l.exists_ then g (p, some l) else .ok none
      | some ls => (runMerge s ls (fun l => if l.exists_ then g (p, some l) else .ok none)).1)).1 := by
  refine mergeM_does hI s (fun p hp => ?_)
  have one : ∀ ls, p.entry.locations = some ls → ∀ l ∈ ls,
      Does I (invokeWithLocation E rec p k l) (if l.exists_ then g (p, some l) else .ok none) := by
    intro ls hls l hl s hs
    rw [invokeWithLocation_off _ _ _ _ _ (hI s hs)]
    by_cases he : l.exists_ = true
    · rw [if_pos he, if_pos he]
      refine h p hp (p, some l) ?_ s hs
      unfold places
      rw [hls]
      exact List.mem_map.2 ⟨l, List.mem_filter.2 ⟨hl, he⟩, rfl⟩
    · rw [if_neg he, if_neg he]; exact ⟨s, rfl, hs⟩
  intro s0 hs0
  unfold mergeLocations
  rw [Quiet.off_withNode (hI s0 hs0)]
  match hls : p.entry.locations with
  | none => exact h p hp (p, none) (by unfold places; rw [hls]; simp) s0 hs0
  | some [] => exact ⟨s0, by cases s <;> rfl, hs0⟩
  | some [l] => exact one _ hls l (by simp) s0 hs0
  | some (l :: l' :: ls) => exact mergeM_does hI s (one _ hls) s0 hs0

/-- C31: with any other strategy exactly the existing locations are asked, each once, in order (or up to the first failure);
something is found iff one of them has it. -/
theorem C31_asked (E : Env) (n : Nat) (k : Key) (s : Strategy) (hs : s ≠ .first) (ps : List Prov) (st t : St)
    (r : Res (Option Value)) (ho : st.on = none) (h : mergeHierarchy E (eval E n) k ps s st = some (r, t)) :
    ∃ r', Asked (fun pl => provLookup E (eval E n) pl.1 pl.2 k) (ps.flatMap places) st r' t ∧ Agree r r' :=
  mergeHierarchy_asked E n k hs ps st t r ho h

/-- C31: a location that does not exist is not asked, whatever the strategy, the provider and its kind of function. -/
theorem C31_missing (E : Env) (rec : Rec) (k : Key) (s : Strategy) (p : Prov) (ls : List Loc)
    (hp : p.entry.locations = some ls) (hm : ∀ l ∈ ls, l.exists_ = false) (st : St) (ho : st.on = none) :
    mergeLocations E rec k s p st = some (.ok none, st) := by
  unfold mergeLocations
  rw [Quiet.off_withNode ho, hp]
  have none_ : ∀ l ∈ ls, Does (fun u => u = st) (invokeWithLocation E rec p k l) (.ok none) := by
    intro l hl u hu
    subst hu
    rw [invokeWithLocation_off _ _ _ _ _ ho, hm l hl]
    exact ⟨u, rfl, rfl⟩
  match ls with
  | [] => rfl
  | [l] => obtain ⟨t, h, rfl⟩ := none_ l (by simp) st rfl; exact h
  | l :: l' :: ls =>
    obtain ⟨t, h, rfl⟩ := mergeM_does (I := fun u => u = st) (fun u hu => by rw [hu]; exact ho) s none_ st rfl
    have hr := (C13_found_iff s (l :: l' :: ls) (fun _ => .ok none) (fun _ _ => ⟨_, rfl⟩)).1.2 (fun _ _ => rfl)
    rw [hr] at h
    exact h

/-! Concrete cases: an entry with three paths, one of which is missing, over one with a glob that matches nothing, over one
with another path. The files that a lookup reads are those that it records. -/

/-- Three levels; `b.yaml` does not exist. -/
def levelsWorld : Env := mk (cfg [
    .map [(s "name", s "l1"), (s "paths", .arr [s "a.yaml", s "b.yaml", s "c.yaml"])],
    .map [(s "name", s "l2"), (s "glob", s "*.none")],
    entry "l3" "d.yaml"])
  [("/h/data/a.yaml".toList, .map [(s "x", .int 1)]), ("/h/data/c.yaml".toList, .map [(s "y", .int 2), (s "x", .int 3)]),
   ("/h/data/d.yaml".toList, .map [(s "y", .int 4), (s "z", .int 5)])]

/-- The paths that the functions of `data_hash` entries were called with, and whether lookup options were asked for then. -/
def World.reads (E : Env) (n : Nat) (key : String) : Option (List Value) :=
  ((eval E n).lookup ⟨key.toList, [.name key.toList]⟩ [] (st [])).map (fun r => r.2.v.trace.filterMap (fun e => match e with
    | .hash _ o => Entries.getS o "path".toList
    | _ => none))

example : ask levelsWorld 10 "y" = some (.ok (some (.int 2))) := by decide +kernel
example : ask levelsWorld 10 "z" = some (.ok (some (.int 5))) := by decide +kernel
example : reads levelsWorld 10 "z" = some [s "/h/data/a.yaml", s "/h/data/c.yaml", s "/h/data/d.yaml"] := by decide +kernel

end Hiera
