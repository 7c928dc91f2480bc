/- C110: what a level has that a level above it has as well counts once. -/
import Verif.Lemmas.Repeated
import Verif.Props.Below

set_option autoImplicit false

namespace Hiera
open Value Spec World

theorem deep_named {st : Str} {stv : Strategy} (h : getStrategy st none = .ok stv) : (∃ o, stv = .deep o) ↔ st = "deep".toList := by
  unfold getStrategy at h
  split at h
  · rename_i e; cases h; subst e; exact ⟨fun ⟨_, h⟩ => (by cases h), fun h => absurd h (by decide)⟩
  split at h
  · rename_i e; cases h; subst e; exact ⟨fun ⟨_, h⟩ => (by cases h), fun h => absurd h (by decide)⟩
  split at h
  · rename_i e; cases h; subst e; exact ⟨fun ⟨_, h⟩ => (by cases h), fun h => absurd h (by decide)⟩
  split at h
  · rename_i e; cases h; exact ⟨fun _ => e, fun _ => ⟨_, rfl⟩⟩
  · cases h

theorem strategy_by_name {st : Str} {stv : Strategy} (h : getStrategy st none = .ok stv) : stv.name = st := by
  have := (C14_names st none).2.1 stv h
  exact this

/-- C110: a level that has nothing for a key but what a level above it has as well can be left out of an ordinary set-up. Lookups
that are merged in the same way have the same answer, and only with `hash` the order of its keys may be another one. -/
theorem C110_once_partial {E E' : Env} (he : StatelessEnv E) (he' : StatelessEnv E') {s s' : St} (hs : Session E s) (hs' : Session E' s')
    (hl : s.v.locked = []) (hl' : s'.v.locked = []) {sc sc' : Scope} {ls ms : List Level} {l : Level} {root st : Str} {opts opts' : Entries}
    (hq : Question E sc (ls ++ l :: ms) root opts st) (hq' : Question E' sc' (ls ++ ms) root opts' st) (hr : Repeats l ls root)
    (hst : st ∈ ["first".toList, "unique".toList, "hash".toList, "deep".toList])
    (hd : st = "deep".toList → ∀ v ∈ valuesOf [l] root, NoDups v) (ha : ArrayIfAlone st (valuesOf (ls ++ ms) root)) {fs : List Str}
    (hf : ∀ f ∈ fs, KeyPart f) (ex ex' : Option ExplOpts) :
    ∃ k v w, newKey (joinDots (root :: fs)) = .ok k ∧ Gives E (nextInvocation s sc ex) k opts (.ok v) ∧
      Gives E' (nextInvocation s' sc' ex') k opts' (.ok w) ∧ SameButOrder v w ∧ (st ≠ "hash".toList → v = w) := by
  obtain ⟨stv, hv⟩ := strategy_known hst
  have hk : newKey (joinDots (root :: fs)) = .ok ⟨joinDots (root :: fs), .name root :: fs.map .name⟩ := segments_key (by simp) (fun y hy => by
    rcases List.mem_cons.1 hy with rfl | hy
    · exact hq.part
    · exact hf y hy)
  have e : valuesOf (ls ++ l :: ms) root = valuesOf ls root ++ (valuesOf [l] root ++ valuesOf ms root) := by
    rw [← List.singleton_append]
    simp only [valuesOf, List.filterMap_append]
  have e' : valuesOf (ls ++ ms) root = valuesOf ls root ++ valuesOf ms root := List.filterMap_append
  have h2 := answer_combined he' hs' hl' hq' hv ha (joinDots (root :: fs)) fs ex'
  have wall : ∀ v ∈ valuesOf ls root ++ valuesOf ms root, WF v := fun v h => valuesOf_WF hq'.setup (by rw [e']; exact h)
  have hcases : valuesOf [l] root = [] ∨ ∃ v, valuesOf [l] root = [v] := by
    rw [valuesOf_cons]
    cases l.has root with
    | none => exact .inl rfl
    | some v => exact .inr ⟨v, rfl⟩
  rcases hcases with h0 | ⟨v, h0⟩
  · have e0 : valuesOf (ls ++ l :: ms) root = valuesOf (ls ++ ms) root := by rw [e, e', h0]; rfl
    have h1 := answer_combined he hs hl hq hv (by rw [e0]; exact ha) (joinDots (root :: fs)) fs ex
    rw [e0] at h1
    refine ⟨_, _, _, hk, h1, h2, ?_, fun _ => rfl⟩
    cases hc : refCombine stv (valuesOf (ls ++ ms) root) with
    | none => exact .inl ⟨rfl, rfl⟩
    | some x =>
      have wx : WF x := by
        rw [e'] at hc
        cases hus : valuesOf ls root ++ valuesOf ms root with
        | nil => rw [hus] at hc; cases hc
        | cons u us =>
          rw [hus] at hc wall
          cases hc
          exact (fold_extends stv us (convert_WF stv (wall u (by simp))) (fun w h => wall w (by simp [h])) (flatFor_convert stv u)).2
      exact equals_field fs wx wx (equals_refl wx)
  · have hmem : v ∈ valuesOf ls root := hr v (by rw [h0]; simp)
    have ha' : ArrayIfAlone st (valuesOf (ls ++ l :: ms) root) := fun hu x h => by
      exfalso
      rw [e, h0] at h
      have h3 := congrArg List.length h
      have h4 := List.length_pos_of_mem hmem
      simp only [List.length_append, List.length_cons, List.length_nil] at h3
      omega
    have h1 := answer_combined he hs hl hq hv ha' (joinDots (root :: fs)) fs ex
    obtain ⟨same, x, y, hx, hy, wx, wy, exy⟩ := combine_again stv (us := valuesOf ls root) (ws := valuesOf ms root) (v := v)
      (fun u h => wall u (List.mem_append_left _ h)) (fun w h => wall w (List.mem_append_right _ h)) hmem
      (fun o ho => hd ((deep_named hv).1 ⟨o, ho⟩) v (by rw [h0]; simp))
      (fun hu x hx => ha (by rw [← strategy_by_name hv, hu]; rfl) x (by rw [e']; exact hx))
    rw [e, h0, List.singleton_append] at h1
    rw [e'] at h2
    refine ⟨_, _, _, hk, h1, h2, ?_, fun hn => ?_⟩
    · rw [hx, hy]
      exact equals_field fs wx wy exy
    · rw [same (fun hh => hn (by rw [← strategy_by_name hv, hh]; rfl))]

/-- C110: it is merged in the same way, if the level repeats what it says about lookups too. -/
theorem C110_same_way {ls ms : List Level} {l : Level} {root st : Str} {opts : Entries} (hr : Repeats l ls "lookup_options".toList) :
    MergedBy (ls ++ l :: ms) root opts st ↔ MergedBy (ls ++ ms) root opts st := by
  have e : (valuesOf (ls ++ l :: ms) "lookup_options".toList).findSome? (mergeIn root) =
      (valuesOf (ls ++ ms) "lookup_options".toList).findSome? (mergeIn root) := by
    have e1 : valuesOf (ls ++ l :: ms) "lookup_options".toList =
        valuesOf ls "lookup_options".toList ++ (valuesOf [l] "lookup_options".toList ++ valuesOf ms "lookup_options".toList) := by
      rw [← List.singleton_append]
      simp only [valuesOf, List.filterMap_append]
    have e2 : valuesOf (ls ++ ms) "lookup_options".toList = valuesOf ls "lookup_options".toList ++ valuesOf ms "lookup_options".toList :=
      List.filterMap_append
    rw [e1, e2]
    unfold Repeats at hr
    rw [valuesOf_cons] at hr ⊢
    cases h : l.has "lookup_options".toList with
    | none => rfl
    | some v =>
      rw [h] at hr
      exact findSome_again (hr v (by simp))
  constructor
  · intro h
    cases h with
    | asked h => exact .asked h
    | said h h' => exact .said h (by rw [← e]; exact h')
    | default h h' => exact .default h (by rw [← e]; exact h')
  · intro h
    cases h with
    | asked h => exact .asked h
    | said h h' => exact .said h (by rw [e]; exact h')
    | default h h' => exact .default h (by rw [e]; exact h')

/-- C110: a level with the same file as one above it repeats it, whatever the key. -/
theorem C110_same_file {ls ms : List Level} {a b : Level} (h : b.data = a.data) (key : Str) : Repeats b (ls ++ a :: ms) key := by
  intro v hv
  simp only [valuesOf, List.mem_filterMap, List.mem_cons, List.not_mem_nil, or_false, exists_eq_left] at hv ⊢
  exact ⟨a, by simp, by rw [← h]; exact hv⟩

namespace Repeated110
open Ordinary92

/-- A level with the file that the level of the node has as well. -/
def server : Level := ⟨"server".toList, [.text "nodes/web.yaml".toList], some nodeData⟩

/-- The set-up of C92 with that level above the common one. -/
def more : List Level := levels.take 2 ++ server :: levels.drop 2

def worldMore : Env :=
  { mk (configOf more) [("/h/data/nodes/web.yaml".toList, .map nodeData), ("/h/data/common.yaml".toList, .map commonData)] with
    top := .mux, muxFns := some [.config, .env] }

theorem statelessMore : StatelessEnv worldMore := by
  refine ⟨.inr ⟨rfl, [.env], rfl, by simp⟩, fun fs f h hf => ?_, (fun _ _ h => nomatch h), (fun _ _ _ h => nomatch h)⟩
  cases h
  rcases List.mem_cons.1 hf with h | h
  · subst h; trivial
  · rw [List.mem_singleton.1 h]; trivial

theorem old {l : Level} (h : l ∈ more) : l = server ∨ l ∈ levels := by
  simp only [more, levels, List.take, List.drop, List.cons_append, List.nil_append, List.mem_cons, List.not_mem_nil, or_false] at h ⊢
  tauto

theorem ordinaryMore : Ordinary worldMore scope more where
  config := rfl
  named := by decide
  distinct := by decide
  paths := fun l h => by
    rcases old h with rfl | h
    · refine ⟨by decide, fun p hp => ?_⟩
      cases List.mem_singleton.1 hp
      show '%' ∉ _; decide
    · exact ordinary.paths l h
  vars := fun l h => by
    rcases old h with rfl | h
    · intro x fs hx
      cases List.mem_singleton.1 hx
    · exact ordinary.vars l h
  dataDir := ordinary.dataDir
  pluginDir := ordinary.pluginDir
  there := fun l h => by
    rcases old h with rfl | h
    · intro es he
      cases he
      have hf : Level.file worldMore scope server = "/h/data/nodes/web.yaml".toList := by decide +kernel
      rw [hf]
      refine ⟨by decide +kernel, by rfl, ?_⟩
      simp [WF_map, nodeData, s, UniqueKeys]
    · intro es he
      simp only [levels, List.mem_cons, List.not_mem_nil, or_false] at h
      rcases h with rfl | rfl | rfl
      · cases he
        have hf : Level.file worldMore scope ⟨"nodes".toList, [.text "nodes/".toList, .var "node".toList ["name".toList], .text ".yaml".toList], some nodeData⟩ =
          "/h/data/nodes/web.yaml".toList := by decide +kernel
        rw [hf]
        refine ⟨by decide +kernel, by rfl, ?_⟩
        simp [WF_map, nodeData, s, UniqueKeys]
      · cases he
      · cases he
        have hf : Level.file worldMore scope ⟨"common".toList, [.text "common.yaml".toList], some commonData⟩ =
          "/h/data/common.yaml".toList := by decide +kernel
        rw [hf]
        refine ⟨by decide +kernel, by rfl, ?_⟩
        simp [WF_map, commonData, s, UniqueKeys]
  absent := by
    have : ∀ l ∈ more, l.data.isNone = true → worldMore.stat (l.file worldMore scope) = false := by decide +kernel
    exact fun l hl h => this l hl (by rw [h]; rfl)

theorem repeats (key : Str) : Repeats server (levels.take 2) key :=
  C110_same_file (ls := []) (ms := [⟨"sites".toList, [.text "sites/".toList, .var "site".toList [], .text ".yaml".toList], none⟩])
    (a := ⟨"nodes".toList, [.text "nodes/".toList, .var "node".toList ["name".toList], .text ".yaml".toList], some nodeData⟩) rfl key

theorem questionMore : Question worldMore scope more "app::users".toList [] "deep".toList where
  setup := ordinaryMore
  top := .inr ⟨rfl, rfl, by decide, by decide⟩
  part := question.part
  ordinary := by decide
  values := fun v hv => unmarked_of_marked ((by decide +kernel : ∀ v ∈ valuesOf more "app::users".toList, marked v = false) v hv)
  options := by
    have : valuesOf more "lookup_options".toList = valuesOf levels "lookup_options".toList := by decide +kernel
    rw [this]
    exact question.options
  merge := (C110_same_way (repeats _)).2 question.merge

/-- Not vacuous: users, merged deeply, in a set-up with the file of the node on two levels. -/
example : ∃ k v w, newKey "app::users".toList = .ok k ∧ Gives worldMore (newInvocation scope none) k [] (.ok v) ∧
    Gives world (newInvocation scope none) k [] (.ok w) ∧ SameButOrder v w ∧ ("deep".toList ≠ "hash".toList → v = w) :=
  C110_once_partial (ls := levels.take 2) (ms := levels.drop 2) (l := server) statelessMore stateless (.start scope none) (.start scope none) rfl rfl
    questionMore question (repeats _) (by decide) (fun _ v hv => by
      have : valuesOf [server] "app::users".toList = [.map [(s "eve", .map [(s "uid", .int 9), (s "shell", s "zsh")])]] := by decide +kernel
      rw [this] at hv
      cases List.mem_singleton.1 hv
      simp [NoDups, NoDupsE, s]) (fun h => absurd h (by decide)) (fs := []) (fun f hf => nomatch hf) none none

/-- A text and an array with two equal elements, on one level, and with the same file on two levels. -/
def file : Entries := [(s "motd", s "hello"), (s "ports", .arr [.int 80, .int 80]), (s "limits", .map [(s "soft", .int 1), (s "hard", .int 2)])]
def once : Env := mk (cfg [entry "nodes" "nodes.yaml"]) [("/h/data/nodes.yaml".toList, .map file)]
def twice : Env := mk (cfg [entry "nodes" "nodes.yaml", entry "again" "./nodes.yaml"]) [("/h/data/nodes.yaml".toList, .map file)]

theorem statelessOnce : StatelessEnv once := ⟨.inl rfl, (fun _ _ h => nomatch h), (fun _ _ h => nomatch h), (fun _ _ _ h => nomatch h)⟩
theorem statelessTwice : StatelessEnv twice := ⟨.inl rfl, (fun _ _ h => nomatch h), (fun _ _ h => nomatch h), (fun _ _ _ h => nomatch h)⟩

end Repeated110

/-- C110 is false of the code for other values: a text that two levels with the same file have for a key merged by `unique` becomes an
array, and an array with equal elements loses them in a deep merge with itself. -/
theorem C110_false :
    (∃ k v w, newKey "motd".toList = .ok k ∧
      Gives Repeated110.twice (newInvocation (.map []) none) k [(s "merge", s "unique")] (.ok v) ∧
      Gives Repeated110.once (newInvocation (.map []) none) k [(s "merge", s "unique")] (.ok w) ∧ ¬SameButOrder v w) ∧
    (∃ k v w, newKey "ports".toList = .ok k ∧
      Gives Repeated110.twice (newInvocation (.map []) none) k [(s "merge", s "deep")] (.ok v) ∧
      Gives Repeated110.once (newInvocation (.map []) none) k [(s "merge", s "deep")] (.ok w) ∧ ¬SameButOrder v w) := by
  refine ⟨⟨⟨"motd".toList, [.name "motd".toList]⟩, some (.arr [s "hello"]), some (s "hello"), by decide +kernel, ?_, ?_, fun h => ?_⟩,
    ⟨⟨"ports".toList, [.name "ports".toList]⟩, some (.arr [.int 80]), some (.arr [.int 80, .int 80]), by decide +kernel, ?_, ?_, fun h => ?_⟩⟩
  · exact Below107.given Repeated110.statelessTwice (answer_of (n := 1) (m := 3) (by decide +kernel))
  · exact Below107.given Repeated110.statelessOnce (answer_of (n := 1) (m := 3) (by decide +kernel))
  · rcases h with ⟨h, _⟩ | ⟨x, y, hx, hy, e⟩
    · cases h
    · cases hx
      cases hy
      revert e
      decide +kernel
  · exact Below107.given Repeated110.statelessTwice (answer_of (n := 1) (m := 3) (by decide +kernel))
  · exact Below107.given Repeated110.statelessOnce (answer_of (n := 1) (m := 3) (by decide +kernel))
  · rcases h with ⟨h, _⟩ | ⟨x, y, hx, hy, e⟩
    · cases h
    · cases hx
      cases hy
      revert e
      decide +kernel

end Hiera
