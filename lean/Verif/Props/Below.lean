/- C107: a level below takes nothing away from what the levels above it have. -/
import Verif.Lemmas.Below

set_option autoImplicit false

namespace Hiera
open Value Spec World

theorem answer_combined {E : Env} (he : StatelessEnv E) {s : St} (hs : Session E s) (hl : s.v.locked = []) {sc : Scope} {ls : List Level}
    {root st : Str} {opts : Entries} (hq : Question E sc ls root opts st) {stv : Strategy} (hst : getStrategy st none = .ok stv)
    (ha : ArrayIfAlone st (valuesOf ls root)) (src : Str) (fs : List Str) (ex : Option ExplOpts) :
    Gives E (nextInvocation s sc ex) ⟨src, .name root :: fs.map .name⟩ opts (.ok ((refCombine stv (valuesOf ls root)).bind (fieldOf fs))) := by
  obtain ⟨r, h1, h2⟩ := ordinary_answer he hs hl hq src fs ex hst
  obtain ⟨e1, e2⟩ := outcome_combine hst ha
  rcases h1 with ⟨_, rfl⟩ | ⟨_, rfl⟩
  · rw [e1] at h2; exact h2
  · rw [e2] at h2; exact h2

theorem strategy_known {st : Str} (h : st ∈ ["first".toList, "unique".toList, "hash".toList, "deep".toList]) : ∃ stv, getStrategy st none = .ok stv := by
  simp only [List.mem_cons, List.not_mem_nil, or_false] at h
  rcases h with rfl | rfl | rfl | rfl
  exacts [⟨_, rfl⟩, ⟨_, rfl⟩, ⟨_, rfl⟩, ⟨_, rfl⟩]

theorem unique_named {st : Str} {stv : Strategy} (h : getStrategy st none = .ok stv) (hn : st = "unique".toList) : stv = .unique := by
  subst hn
  cases h
  rfl

/-- C107: if levels are added below the levels of an ordinary set-up, a lookup that is merged in the same way as before still has
everything that it had, at every depth. -/
theorem C107_added_partial {E E' : Env} (he : StatelessEnv E) (he' : StatelessEnv E') {s s' : St} (hs : Session E s) (hs' : Session E' s')
    (hl : s.v.locked = []) (hl' : s'.v.locked = []) {sc sc' : Scope} {ls ms : List Level} {root st : Str} {opts opts' : Entries}
    (hq : Question E sc ls root opts st) (hq' : Question E' sc' (ls ++ ms) root opts' st)
    (hst : st ∈ ["first".toList, "unique".toList, "hash".toList, "deep".toList]) (ha : ArrayIfAlone st (valuesOf ls root)) {fs : List Str}
    (hf : ∀ f ∈ fs, KeyPart f) (ex ex' : Option ExplOpts) :
    ∃ k v w, newKey (joinDots (root :: fs)) = .ok k ∧ Gives E (nextInvocation s sc ex) k opts (.ok v) ∧
      Gives E' (nextInvocation s' sc' ex') k opts' (.ok w) ∧ ExtendsO v w := by
  obtain ⟨stv, hv⟩ := strategy_known hst
  have hk : newKey (joinDots (root :: fs)) = .ok ⟨joinDots (root :: fs), .name root :: fs.map .name⟩ := segments_key (by simp) (fun y hy => by
    rcases List.mem_cons.1 hy with rfl | hy
    · exact hq.part
    · exact hf y hy)
  have h1 := answer_combined he hs hl hq hv ha (joinDots (root :: fs)) fs ex
  have e : valuesOf (ls ++ ms) root = valuesOf ls root ++ valuesOf ms root := List.filterMap_append
  by_cases hn : valuesOf ls root = []
  · obtain ⟨r, _, h2⟩ := ordinary_answer he' hs' hl' hq' (joinDots (root :: fs)) fs ex' hv
    refine ⟨_, _, _, hk, h1, h2, fun x hx => ?_⟩
    rw [hn] at hx
    cases hx
  · have ha' : ArrayIfAlone st (valuesOf (ls ++ ms) root) := fun hu v h => by
      refine ha hu v ?_
      rw [e] at h
      cases hvs : valuesOf ls root with
      | nil => exact absurd hvs hn
      | cons x xs =>
        rw [hvs, List.cons_append] at h
        injection h with h1 h2
        rw [List.append_eq_nil_iff] at h2
        rw [h1, h2.1]
    have h2 := answer_combined he' hs' hl' hq' hv ha' (joinDots (root :: fs)) fs ex'
    refine ⟨_, _, _, hk, h1, h2, extendsO_field fs ?_⟩
    rw [e]
    refine combine_extends stv (fun v hv => valuesOf_WF hq.setup hv) (fun w hw => valuesOf_WF hq'.setup (ls := ls ++ ms) (key := root) ?_)
    rw [e]
    exact List.mem_append_right _ hw

/-- C107: it is merged in the same way if the caller says how, if a level that was there before does, or if none of the new ones does. -/
theorem C107_same_way {ls ms : List Level} {root st : Str} {opts : Entries} (h : MergedBy ls root opts st)
    (hm : (∃ v, Entries.getS opts "merge".toList = some v) ∨ (∃ v ∈ valuesOf ls "lookup_options".toList, ∃ m, mergeIn root v = some m) ∨
      ∀ v ∈ valuesOf ms "lookup_options".toList, mergeIn root v = none) : MergedBy (ls ++ ms) root opts st := by
  have e : valuesOf (ls ++ ms) "lookup_options".toList = valuesOf ls "lookup_options".toList ++ valuesOf ms "lookup_options".toList := List.filterMap_append
  cases h with
  | asked h => exact .asked h
  | said h h' => exact .said h (by rw [e, List.findSome?_append, h']; rfl)
  | default h h' =>
    refine .default h ?_
    rw [e, List.findSome?_append, h', Option.none_or]
    rcases hm with ⟨v, hv⟩ | ⟨v, hv, m, hm⟩ | hm
    · rw [h] at hv; cases hv
    · rw [List.findSome?_eq_none_iff.1 h' v hv] at hm; cases hm
    · exact List.findSome?_eq_none_iff.2 hm

/-- C107: the answer has everything that the highest level that has the key has for it. With `unique`, these are its elements. -/
theorem C107_highest {E : Env} (he : StatelessEnv E) {s : St} (hs : Session E s) (hl : s.v.locked = []) {sc : Scope} {ls : List Level}
    {root st : Str} {opts : Entries} (hq : Question E sc ls root opts st)
    (hst : st ∈ ["first".toList, "unique".toList, "hash".toList, "deep".toList]) (ha : ArrayIfAlone st (valuesOf ls root))
    {a : Value} {vs : List Value} (hv : valuesOf ls root = a :: vs) (ex : Option ExplOpts) :
    ∃ k w, newKey root = .ok k ∧ Gives E (nextInvocation s sc ex) k opts (.ok (some w)) ∧
      (st ≠ "unique".toList → Extends a w) ∧ (st = "unique".toList → ∀ xs, Spec.Leaves a xs → Extends (.arr xs) w) := by
  obtain ⟨stv, h⟩ := strategy_known hst
  have hk : newKey root = .ok ⟨root, [.name root]⟩ := by simpa [joinDots] using segments_key (xs := [root]) (by simp) (by simpa using hq.part)
  have h1 := answer_combined he hs hl hq h ha root [] ex
  have hw : ∀ v ∈ a :: vs, WF v := fun v h => valuesOf_WF hq.setup (by rw [hv]; exact h)
  have hx := (fold_extends stv vs (convert_WF stv (hw a (by simp))) (fun w h => hw w (by simp [h])) (flatFor_convert stv a)).1
  rw [hv] at h1
  refine ⟨_, vs.foldl stv.merge (stv.convertValue a), hk, h1, fun hn => ?_, fun hu xs hxs => ?_⟩
  · have e : stv.convertValue a = a := by
      cases stv with
      | unique =>
        exfalso
        revert h
        simp only [List.mem_cons, List.not_mem_nil, or_false] at hst
        rcases hst with rfl | rfl | rfl | rfl
        · intro h; cases h
        · exact absurd rfl hn
        · intro h; cases h
        · intro h; cases h
      | _ => rfl
    rw [e] at hx ⊢
    exact hx
  · cases unique_named h hu
    rw [leaves_eq hxs, ← convertUnique_eq]
    exact hx

namespace Below107
open Ordinary92

/-- The set-up of C92 without its common level. -/
def above : List Level := levels.take 2

def worldAbove : Env :=
  { mk (configOf above) [("/h/data/nodes/web.yaml".toList, .map nodeData)] with top := .mux, muxFns := some [.config, .env] }

theorem statelessAbove : StatelessEnv worldAbove := by
  refine ⟨.inr ⟨rfl, [.env], rfl, by simp⟩, fun fs f h hf => ?_, (fun _ _ h => nomatch h), (fun _ _ _ h => nomatch h)⟩
  cases h
  rcases List.mem_cons.1 hf with h | h
  · subst h; trivial
  · rw [List.mem_singleton.1 h]; trivial

theorem sub {l : Level} (h : l ∈ above) : l ∈ levels := List.mem_of_mem_take h

theorem ordinaryAbove : Ordinary worldAbove scope above where
  config := rfl
  named := fun l h => ordinary.named l (sub h)
  distinct := by decide
  paths := fun l h => ordinary.paths l (sub h)
  vars := fun l h => ordinary.vars l (sub h)
  dataDir := fun h => by have := (hasMarker_iff _).2 h; revert this; decide
  pluginDir := fun h => by have := (hasMarker_iff _).2 h; revert this; decide
  there := by
    intro l hl es he
    simp only [above, levels, List.take, List.mem_cons, List.not_mem_nil, or_false] at hl
    rcases hl with rfl | rfl
    · cases he
      have hf : Level.file worldAbove scope ⟨"nodes".toList, [.text "nodes/".toList, .var "node".toList ["name".toList], .text ".yaml".toList], some nodeData⟩ =
        "/h/data/nodes/web.yaml".toList := by decide +kernel
      rw [hf]
      refine ⟨by decide +kernel, by rfl, ?_⟩
      simp [WF_map, nodeData, s, UniqueKeys]
    · cases he
  absent := by
    have : ∀ l ∈ above, l.data.isNone = true → worldAbove.stat (l.file worldAbove scope) = false := by decide +kernel
    exact fun l hl h => this l hl (by rw [h]; rfl)

def asked : Entries := [(s "merge", s "deep")]

theorem questionAbove : Question worldAbove scope above "app::users".toList asked "deep".toList where
  setup := ordinaryAbove
  top := .inr ⟨rfl, rfl, by decide, by decide⟩
  part := question.part
  ordinary := by decide
  values := fun v hv => unmarked_of_marked ((by decide +kernel : ∀ v ∈ valuesOf above "app::users".toList, marked v = false) v hv)
  options := by
    have : valuesOf above "lookup_options".toList = [] := by decide +kernel
    rw [this]
    exact fun v hv => nomatch hv
  merge := .asked (by decide +kernel)

theorem alone : ArrayIfAlone "deep".toList (valuesOf above "app::users".toList) := fun h => absurd h (by decide)

/-- Not vacuous: what the level of the node has about a user is still there when the common level is added, and more. -/
example : ∃ k v w, newKey "app::users.eve".toList = .ok k ∧ Gives worldAbove (newInvocation scope none) k asked (.ok v) ∧
    Gives world (newInvocation scope none) k [] (.ok w) ∧ ExtendsO v w :=
  C107_added_partial (ms := levels.drop 2) statelessAbove stateless (.start scope none) (.start scope none) rfl rfl questionAbove question (by decide) alone
    (fs := ["eve".toList]) (fun f hf => by cases List.mem_singleton.1 hf; exact ⟨by unfold Unquoted; decide, by decide, alpha_not_int (by decide)⟩) none none

example : Gives worldAbove (newInvocation scope none) ⟨"app::users.eve".toList, [.name "app::users".toList, .name "eve".toList]⟩ asked
    (.ok (some (.map [(s "uid", .int 9), (s "shell", s "zsh")]))) :=
  (C81_answer worldAbove statelessAbove (.start scope none) rfl scope none _ asked _).2 (answer_of (n := 1) (m := 3) (by decide +kernel))

example : ∃ k w, newKey "app::users".toList = .ok k ∧ Gives world (newInvocation scope none) k [] (.ok (some w)) ∧
    ("deep".toList ≠ "unique".toList → Extends (.map [(s "eve", .map [(s "uid", .int 9), (s "shell", s "zsh")])]) w) ∧
    ("deep".toList = "unique".toList → ∀ xs, Spec.Leaves (.map [(s "eve", .map [(s "uid", .int 9), (s "shell", s "zsh")])]) xs → Extends (.arr xs) w) :=
  C107_highest stateless (.start scope none) rfl question (by decide) (fun h => absurd h (by decide))
    (vs := [.map [(s "eve", .map [(s "uid", .int 7), (s "home", s "/home/eve")]), (s "adam", .map [(s "uid", .int 1)])]]) (by decide +kernel) none

/-- The relation tells values apart: other text, a field that is gone, an element in another place. -/
example : ¬Extends (s "a") (s "b") ∧ ¬Extends (.map [(s "a", .int 1)]) (.map []) ∧ ¬Extends (.map [(s "a", .int 1)]) (.map [(s "a", .int 2)]) ∧
    ¬Extends (.arr [.int 1]) (.arr [.int 2, .int 1]) := by
  have wk : WF (s "a") := by simp [s]
  refine ⟨fun h => ?_, fun h => ?_, fun h => ?_, fun h => ?_⟩
  · generalize ha : s "a" = a at h
    generalize hb : s "b" = b at h
    cases h with
    | same => rw [← hb] at ha; revert ha; decide
    | maps => cases ha
    | arrays => cases ha
  · cases h with
    | maps h _ => exact h (s "a") (.int 1) wk (by decide +kernel) (by decide +kernel)
  · cases h with
    | maps _ h =>
      have := h (s "a") (.int 1) (.int 2) wk (by decide +kernel) (by decide +kernel)
      cases this
  · cases h with
    | arrays h1 h2 =>
      rcases h1 with rfl | h1
      · obtain ⟨t, ht⟩ := h2
        cases ht
      · rw [isNub_eq (by simp) h1] at h2
        obtain ⟨t, ht⟩ := h2
        have e : unique [Value.int 1] = [.int 1] := by decide +kernel
        rw [e] at ht
        cases ht

/-- One level with a text, and one more below it. -/
def oneLevel : Env := mk (cfg [entry "nodes" "nodes.yaml"]) [("/h/data/nodes.yaml".toList, .map [(s "motd", s "hello"), (s "greeting", s "hi%{lookup('name')}")])]
def twoLevels : Env := mk (cfg [entry "nodes" "nodes.yaml", entry "common" "common.yaml"])
  [("/h/data/nodes.yaml".toList, .map [(s "motd", s "hello"), (s "greeting", s "hi%{lookup('name')}")]),
   ("/h/data/common.yaml".toList, .map [(s "motd", s "welcome"), (s "name", s "eve")])]

theorem statelessOne : StatelessEnv oneLevel := ⟨.inl rfl, (fun _ _ h => nomatch h), (fun _ _ h => nomatch h), (fun _ _ _ h => nomatch h)⟩
theorem statelessTwo : StatelessEnv twoLevels := ⟨.inl rfl, (fun _ _ h => nomatch h), (fun _ _ h => nomatch h), (fun _ _ _ h => nomatch h)⟩

theorem given {E : Env} (he : StatelessEnv E) {k : Key} {opts : Entries} {r : Res (Option Value)}
    (h : ∃ n m, refAnswer E (.map []) k opts n m = some r) : Gives E (newInvocation (.map []) none) k opts r :=
  (C81_answer E he (.start (.map []) none) rfl (.map []) none k opts r).2 h

end Below107

/-- C107 is false of the code for other values: a text that is found alone with `unique` becomes an array, and so does not stay what it
was; and a value that refers to another key, which only the new level has, is another one. -/
theorem C107_false :
    (∃ k v w, newKey "motd".toList = .ok k ∧
      Gives Below107.oneLevel (newInvocation (.map []) none) k [(s "merge", s "unique")] (.ok v) ∧
      Gives Below107.twoLevels (newInvocation (.map []) none) k [(s "merge", s "unique")] (.ok w) ∧ ¬ExtendsO v w) ∧
    (∃ k v w, newKey "greeting".toList = .ok k ∧
      Gives Below107.oneLevel (newInvocation (.map []) none) k [] (.ok v) ∧
      Gives Below107.twoLevels (newInvocation (.map []) none) k [] (.ok w) ∧ ¬ExtendsO v w) := by
  have texts : ∀ a w, Extends (.str a) w → w = .str a := fun a w h => by cases h; rfl
  refine ⟨⟨⟨"motd".toList, [.name "motd".toList]⟩, some (s "hello"), some (.arr [s "hello", s "welcome"]), by decide +kernel, ?_, ?_, fun h => ?_⟩,
    ⟨⟨"greeting".toList, [.name "greeting".toList]⟩, some (s "hi"), some (s "hieve"), by decide +kernel, ?_, ?_, fun h => ?_⟩⟩
  · exact Below107.given Below107.statelessOne (answer_of (n := 1) (m := 3) (by decide +kernel))
  · exact Below107.given Below107.statelessTwo (answer_of (n := 1) (m := 3) (by decide +kernel))
  · obtain ⟨y, hy, hx⟩ := h _ rfl
    cases hy
    cases texts _ _ hx
  · exact Below107.given Below107.statelessOne (answer_of (n := 1) (m := 8) (by decide +kernel))
  · exact Below107.given Below107.statelessTwo (answer_of (n := 1) (m := 8) (by decide +kernel))
  · obtain ⟨y, hy, hx⟩ := h _ rfl
    cases hy
    have := texts _ _ hx
    revert this
    decide

end Hiera
