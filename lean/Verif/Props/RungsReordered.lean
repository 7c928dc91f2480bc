/- C112 with levels of every kind. -/
import Verif.Props.Reordered
import Verif.Props.RungsReferring

set_option autoImplicit false

namespace Hiera
open Value Spec World

theorem equalsList_of {vs ws : List Value} (h : List.Forall₂ Eqv vs ws) : equalsList vs ws = true := by
  induction h with
  | nil => rfl
  | cons h _ ih => rw [equalsList, h.2.2, ih]; rfl

/-- C112 with levels of every kind: if what the files of two set-ups have for a key is the same, but for the order of entries, then what
is found is the same, but for the order of entries. -/
theorem C112_levels {E E' : Env} (he : StatelessEnv E) (he' : StatelessEnv E') {s s' : St} (hs : Session E s) (hs' : Session E' s')
    (hl : s.v.locked = []) (hl' : s'.v.locked = []) {sc sc' : Scope} {rs rs' : List Rung} {root st : Str} {opts opts' : Entries}
    (ha : AskedIn E sc rs root) (ha' : AskedIn E' sc' rs' root) (hsaid : StrategySaid (levelsIn E sc rs) root opts st)
    (hsaid' : StrategySaid (levelsIn E' sc' rs') root opts' st) (hc : saidOf "convert_to".toList root (levelsIn E sc rs) = [])
    (hc' : saidOf "convert_to".toList root (levelsIn E' sc' rs') = []) (hm : Mergeable st (valuesOf (levelsIn E sc rs) root))
    (hm' : Mergeable st (valuesOf (levelsIn E' sc' rs') root)) (hd : st = "deep".toList → Together (valuesOf (levelsIn E sc rs) root))
    (hd' : st = "deep".toList → Together (valuesOf (levelsIn E' sc' rs') root))
    (hv : List.Forall₂ Reordered (valuesOf (levelsIn E sc rs) root) (valuesOf (levelsIn E' sc' rs') root)) {fs : List Str}
    (hf : ∀ f ∈ fs, KeyPart f) (ex ex' : Option ExplOpts) :
    ∃ k v w, newKey (joinDots (root :: fs)) = .ok k ∧ Gives E (nextInvocation s sc ex) k opts (.ok v) ∧
      Gives E' (nextInvocation s' sc' ex') k opts' (.ok w) ∧ Option.Rel Reordered v w := by
  obtain ⟨k, v, h1, h2, h3⟩ := C119_textbook he hs hl ha hsaid hc hm hd hf ex
  obtain ⟨k', w, h1', h2', h3'⟩ := C119_textbook he' hs' hl' ha' hsaid' hc' hm' hd' hf ex'
  rw [h1] at h1'
  cases h1'
  have wf : ∀ x ∈ valuesOf (levelsIn E sc rs) root, WF x := fun _ h => rungs_WF ha.setup h
  have wf' : ∀ x ∈ valuesOf (levelsIn E' sc' rs') root, WF x := fun _ h => rungs_WF ha'.setup h
  refine ⟨k, _, _, h1, h3, h3', rel_reordered (fields_equal fs ?_)⟩
  have e := textbook_congr wf wf' (equalsList_of (all_equal hv wf)) h2 h2'
  have w1 := textbook_WF wf h2
  have w2 := textbook_WF wf' h2'
  cases v <;> cases w <;> first | exact e.elim | skip
  · exact .none
  · exact .some ⟨w1 _ rfl, w2 _ rfl, e⟩

namespace RungsReordered112
open Rungs119

/-- The common file of the example for C119, with entries in another order, at two depths. -/
def said : Entries := [(s "port", .map [(s "convert_to", .arr [s "Integer", .int 16])]), (s "conf", .map [(s "merge", s "hash")])]
def common : Entries := [(s "port", s "50"), (s "conf", .map [(s "d", s "q")]), (s "lookup_options", .map said)]
def extra : Entries := [(s "conf", .map [(s "c", s "w"), (s "b", s "z")])]

def world : Env :=
  { mk (configSaid preset steps) [("/h/data/role/web.yaml".toList, .map web), ("/h/data/role/db.yaml".toList, .map db),
      ("/etc/prod/x.json".toList, .map extra), ("/h/data/common.yaml".toList, .map common)] with
    top := .mux, muxFns := some [.config, .env],
    readJson := fun p => if p = "/etc/prod/x.json".toList then .value (.map extra) else .missing,
    glob := Rungs119.world.glob }

theorem stateless : StatelessEnv world := by
  refine ⟨.inr ⟨rfl, [.env], rfl, by simp⟩, fun fs f h hf => ?_, (fun _ _ h => nomatch h), (fun _ _ _ h => nomatch h)⟩
  cases h
  rcases List.mem_cons.1 hf with h | h
  · subst h; trivial
  · rw [List.mem_singleton.1 h]; trivial

theorem files_roles : Rung.files world scope ⟨"roles".toList, none, false, .mapped "roles".toList [] "role".toList
    [.text "role/".toList, .var "role".toList [], .text ".yaml".toList]⟩ = ["/h/data/role/web.yaml".toList, "/h/data/role/db.yaml".toList] := by
  decide +kernel

theorem files_extra : Rung.files world scope ⟨"extra".toList, some [.text "/etc/".toList, .var "env".toList []], true, .glob [.text "*.json".toList]⟩ =
    ["/etc/prod/x.json".toList] := by
  decide +kernel

theorem files_common : Rung.files world scope ⟨"common".toList, none, false, .paths [[.text "site.yaml".toList], [.text "common.yaml".toList]]⟩ =
    ["/h/data/site.yaml".toList, "/h/data/common.yaml".toList] := by
  decide +kernel

theorem levels_eq : levelsIn world scope rungs = [
    ⟨"/h/data/role/web.yaml".toList, [.text "/h/data/role/web.yaml".toList], some web⟩,
    ⟨"/h/data/role/db.yaml".toList, [.text "/h/data/role/db.yaml".toList], some db⟩,
    ⟨"/etc/prod/x.json".toList, [.text "/etc/prod/x.json".toList], some extra⟩,
    ⟨"/h/data/site.yaml".toList, [.text "/h/data/site.yaml".toList], none⟩,
    ⟨"/h/data/common.yaml".toList, [.text "/h/data/common.yaml".toList], some common⟩] := by
  unfold levelsIn rungs
  simp only [List.flatMap_cons, List.flatMap_nil, Rung.levels, files_roles, files_extra, files_common]
  rfl

theorem values_eq : valuesOf (levelsIn world scope rungs) "conf".toList =
    [.map [(s "a", s "x")], .map [(s "b", s "y")], .map [(s "c", s "w"), (s "b", s "z")], .map [(s "d", s "q")]] := by
  rw [levels_eq]; rfl

theorem options_eq : valuesOf (levelsIn world scope rungs) "lookup_options".toList = [.map said] := by
  rw [levels_eq]; rfl

theorem laddered : Laddered world scope rungs where
  config := .as preset steps rfl rfl (by nofun)
  named := Rungs119.laddered.named
  distinct := Rungs119.laddered.distinct
  texts := Rungs119.laddered.texts
  mapped := Rungs119.laddered.mapped
  vars := Rungs119.laddered.vars
  dataDir := fun h => by have := (hasMarker_iff _).2 h; revert this; show hasMarker "data".toList = true → False; decide
  pluginDir := fun h => by have := (hasMarker_iff _).2 h; revert this; show hasMarker "plugin".toList = true → False; decide
  data := by
    intro r hr f hf hst
    simp only [rungs, List.mem_cons, List.not_mem_nil, or_false] at hr
    rcases hr with rfl | rfl | rfl
    · rw [files_roles] at hf
      simp only [List.mem_cons, List.not_mem_nil, or_false] at hf
      rcases hf with rfl | rfl
      · exact ⟨web, rfl, by simp [web, s, WF_map, UniqueKeys]⟩
      · exact ⟨db, rfl, by simp [db, s, WF_map, UniqueKeys]⟩
    · rw [files_extra] at hf
      cases List.mem_singleton.1 hf
      exact ⟨extra, rfl, by simp [extra, s, WF_map, UniqueKeys]⟩
    · rw [files_common] at hf
      simp only [List.mem_cons, List.not_mem_nil, or_false] at hf
      rcases hf with rfl | rfl
      · cases hst
      · exact ⟨common, rfl, by simp [common, said, s, WF_map, WF_arr, UniqueKeys]⟩
  matched := by
    intro p f hf
    change f ∈ (if p = "/etc/prod/*.json".toList then ["/etc/prod/x.json".toList] else []) at hf
    split at hf
    · cases List.mem_singleton.1 hf; rfl
    · cases hf

theorem asked : AskedIn world scope rungs "conf".toList where
  setup := laddered
  top := .inr ⟨rfl, rfl, by decide, by decide⟩
  part := Rungs119.asked.part
  ordinary := by decide
  values := by
    rw [values_eq]
    intro v hv
    exact unmarked_of_marked ((by decide : ∀ v ∈ [Value.map [(s "a", s "x")], .map [(s "b", s "y")], .map [(s "c", s "w"), (s "b", s "z")], .map [(s "d", s "q")]],
      marked v = false) v hv)
  options := by
    rw [options_eq]
    intro v hv
    cases List.mem_singleton.1 hv
    refine ⟨unmarked_of_marked (by decide), _, rfl, fun o ho => ?_⟩
    have e : Entries.getS said "conf".toList = some (.map [(s "merge", s "hash")]) := rfl
    rw [e] at ho
    cases ho
    exact ⟨_, rfl⟩
  together := by
    rw [options_eq]
    intro a b c h
    have := h.length_le
    simp at this

/-- `conf` is the same hash, but for the order of its entries. -/
example {st st' : St} (hs : Session Rungs119.world st) (hs' : Session world st') (hl : st.v.locked = []) (hl' : st'.v.locked = []) :
    ∃ k v w, newKey "conf".toList = .ok k ∧ Gives Rungs119.world (nextInvocation st scope none) k [] (.ok v) ∧
      Gives world (nextInvocation st' scope none) k [] (.ok w) ∧ Option.Rel Reordered v w :=
  C112_levels Rungs119.stateless stateless hs hs' hl hl' Rungs119.asked asked Rungs119.strategy (by rw [levels_eq]; exact .said rfl rfl)
    (by rw [Rungs119.levels_eq]; rfl) (by rw [levels_eq]; rfl) Rungs119.mergeable
    ⟨by decide, fun _ v hv => by
      rw [values_eq] at hv
      simp only [List.mem_cons, List.not_mem_nil, or_false] at hv
      rcases hv with rfl | rfl | rfl | rfl <;> exact ⟨_, rfl⟩, fun h => absurd h (by decide)⟩
    (fun h => absurd h (by decide)) (fun h => absurd h (by decide))
    (by
      rw [Rungs119.values_eq, values_eq]
      exact .cons .same (.cons .same (.cons (.moved (List.Perm.swap _ _ [])) (.cons .same .nil))))
    (fs := []) nofun none none

end RungsReordered112

end Hiera
