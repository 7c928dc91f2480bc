/- C112: the order in which the entries of hashes are written does not matter. -/
import Verif.Lemmas.Reordered
import Verif.Props.BelowModules

set_option autoImplicit false

namespace Hiera
open Value Spec World

/-- C112: of two ordinary set-ups whose files have the same for a key, but for the order in which the entries of hashes are written, the
answers are the same, but for the order of entries. -/
theorem C112_values {E E' : Env} (he : StatelessEnv E) (he' : StatelessEnv E') (ht : E.top = E'.top) {s s' : St} (hs : Session E s)
    (hs' : Session E' s') (hl : s.v.locked = []) (hl' : s'.v.locked = []) {sc sc' : Scope} {ls ms : List Level} {root st : Str}
    {opts opts' : Entries} (hq : Question E sc ls root opts st) (hq' : Question E' sc' ms root opts' st) (hn : ls.length = ms.length)
    (hv : List.Forall₂ Reordered (valuesOf ls root) (valuesOf ms root))
    (hst : st ∈ ["first".toList, "unique".toList, "hash".toList, "deep".toList]) {fs : List Str} (hf : ∀ f ∈ fs, KeyPart f)
    (ex ex' : Option ExplOpts) :
    ∃ k v w, newKey (joinDots (root :: fs)) = .ok k ∧ Gives E (nextInvocation s sc ex) k opts (.ok v) ∧
      Gives E' (nextInvocation s' sc' ex') k opts' (.ok w) ∧ Option.Rel Reordered v w := by
  obtain ⟨stv, hstv⟩ := strategy_known hst
  obtain ⟨r, h1, h2⟩ := ordinary_answer he hs hl hq (joinDots (root :: fs)) fs ex hstv
  obtain ⟨r', h1', h2'⟩ := ordinary_answer he' hs' hl' hq' (joinDots (root :: fs)) fs ex' hstv
  have ho := outcome_equal stv (all_equal hv fun v h => valuesOf_WF hq.setup h) hn
  refine ⟨_, _, _, key_of hq.part hf, h2, h2', rel_reordered (fields_equal fs ?_)⟩
  rcases h1 with ⟨t, rfl⟩ | ⟨t, rfl⟩ <;> rcases h1' with ⟨t', rfl⟩ | ⟨t', rfl⟩
  · exact ho
  · rw [ht, t'] at t; cases t
  · rw [ht, t'] at t; cases t
  · exact rel_map (fun h => convert_equal stv h) ho

theorem has_equal {E : Env} {sc : Scope} {ls ms : List Level} (ho : Ordinary E sc ls) (h : List.Forall₂ SameButOrderData ls ms) (key : Str) :
    List.Forall₂ Eqv (valuesOf ls key) (valuesOf ms key) := by
  have wf : ∀ l ∈ ls, ∀ es, l.data = some es → WF (.map es) := fun l hl es he => (ho.there l hl es he).2.2
  refine valuesOf_equal (key := key) ?_
  clear ho
  induction h with
  | nil => exact .nil
  | @cons l m ls ms h _ ih =>
    refine .cons ?_ (ih fun l hl => wf l (List.mem_cons_of_mem _ hl))
    have wl := wf l List.mem_cons_self
    unfold SameButOrderData at h
    unfold Level.has
    cases h1 : l.data <;> cases h2 : m.data <;> rw [h1, h2] at h <;> cases h
    · exact .none
    · rename_i es fs h
      have w := wl es h1
      obtain ⟨w', e⟩ := reordered_equals h w
      exact fields_equal [key] (.some ⟨w, w', e⟩) |> fun h => by
        simpa [fieldOf] using h

/-- C112: and they are merged in the same way, if all of the files have the same. -/
theorem C112_same_way {E E' : Env} {sc sc' : Scope} {ls ms : List Level} {root st st' : Str} {opts : Entries}
    (hq : Question E sc ls root opts st) (hq' : Question E' sc' ms root opts st') (h : List.Forall₂ SameButOrderData ls ms) : st = st' := by
  have hs := said_equal root (has_equal hq.setup h "lookup_options".toList)
  have h1 := hq.merge
  have h2 := hq'.merge
  cases h1 with
  | asked a =>
    cases h2 with
    | asked b => rw [a] at b; cases b; rfl
    | said b _ => rw [a] at b; cases b
    | default b _ => rw [a] at b; cases b
  | said a c =>
    rw [c] at hs
    cases h2 with
    | asked b => rw [a] at b; cases b
    | said _ d =>
      rw [d] at hs
      cases hs with
      | some h => simpa using h.2.2
    | default _ d => rw [d] at hs; cases hs
  | default a c =>
    rw [c] at hs
    cases h2 with
    | asked b => rw [a] at b; cases b
    | said _ d => rw [d] at hs; cases hs
    | default => rfl

/-- C112: if the files of one set-up are those of another one with entries in another order, then every key has the same answer in
both, but for the order of entries. -/
theorem C112_order {E E' : Env} (he : StatelessEnv E) (he' : StatelessEnv E') (ht : E.top = E'.top) {s s' : St} (hs : Session E s)
    (hs' : Session E' s') (hl : s.v.locked = []) (hl' : s'.v.locked = []) {sc sc' : Scope} {ls ms : List Level} {root st st' : Str}
    {opts : Entries} (hq : Question E sc ls root opts st) (hq' : Question E' sc' ms root opts st') (h : List.Forall₂ SameButOrderData ls ms)
    (hst : st ∈ ["first".toList, "unique".toList, "hash".toList, "deep".toList]) {fs : List Str} (hf : ∀ f ∈ fs, KeyPart f)
    (ex ex' : Option ExplOpts) :
    ∃ k v w, newKey (joinDots (root :: fs)) = .ok k ∧ Gives E (nextInvocation s sc ex) k opts (.ok v) ∧
      Gives E' (nextInvocation s' sc' ex') k opts (.ok w) ∧ Option.Rel Reordered v w := by
  have e := C112_same_way hq hq' h
  subst e
  refine C112_values he he' ht hs hs' hl hl' hq hq' h.length_eq ?_ hst hf ex ex'
  exact (has_equal hq.setup h root).imp fun a b h => equals_reordered h.1 h.2.1 h.2.2

/-- C112 with modules, whose data may have variables in it: the same for values that are the same, but for the order of entries, when they
are filled in. -/
theorem C112_modules {E E' : Env} {s s' : St} (hs : Session E s) (hs' : Session E' s') (hl : s.v.locked = []) (hl' : s'.v.locked = [])
    {sc sc' : Scope} {ls ls' : List Level} {md md' : Option Module} {root st : Str} {opts opts' : Entries}
    (hq : ModuleQuestion E sc ls md root opts st) (hq' : ModuleQuestion E' sc' ls' md' root opts' st) {vs ws vs' ws' : List Value}
    (hv : List.Forall₂ (Fills E sc) (valuesOf ls root) vs) (hw : List.Forall₂ (Fills E sc) (valuesOf (levelsOf md) root) ws)
    (hv' : List.Forall₂ (Fills E' sc') (valuesOf ls' root) vs') (hw' : List.Forall₂ (Fills E' sc') (valuesOf (levelsOf md') root) ws')
    (hn : ls.length = ls'.length) (hn' : (levelsOf md).length = (levelsOf md').length) (h : List.Forall₂ Reordered vs vs')
    (h' : List.Forall₂ Reordered ws ws') (hst : st ∈ ["first".toList, "unique".toList, "hash".toList, "deep".toList]) {fs : List Str}
    (hf : ∀ f ∈ fs, KeyPart f) (ex ex' : Option ExplOpts) :
    ∃ k v w, newKey (joinDots (root :: fs)) = .ok k ∧ Gives E (nextInvocation s sc ex) k opts (.ok v) ∧
      Gives E' (nextInvocation s' sc' ex') k opts' (.ok w) ∧ Option.Rel Reordered v w := by
  obtain ⟨stv, hstv⟩ := strategy_known hst
  obtain ⟨as, a1, rfl⟩ := levels_mean hv
  obtain ⟨bs, b1, rfl⟩ := levels_mean hw
  obtain ⟨cs, c1, rfl⟩ := levels_mean hv'
  obtain ⟨ds, d1, rfl⟩ := levels_mean hw'
  obtain ⟨w1, h1⟩ := module_both hs hl hq hstv a1 b1 fs ex
  obtain ⟨w2, h2⟩ := module_both hs' hl' hq' hstv c1 d1 fs ex'
  refine ⟨_, _, _, key_of hq.part hf, h1, h2, rel_reordered (fields_equal fs ?_)⟩
  have e1 := outcome_equal stv (all_equal h fun v hv => w1 v (List.mem_append_left _ hv)) (a1.length_eq.symm.trans (hn.trans c1.length_eq))
  have e2 := outcome_equal stv (all_equal h' fun v hv => w1 v (List.mem_append_right _ hv)) (b1.length_eq.symm.trans (hn'.trans d1.length_eq))
  refine outcome_equal stv ?_ rfl
  rw [valuesOf_sides, valuesOf_sides]
  generalize outcome stv as root = x, outcome stv bs root = y, outcome stv cs root = z, outcome stv ds root = u at e1 e2
  cases e1 <;> cases e2
  · rename_i e1 _ _ e2
    exact .cons e1 (.cons e2 .nil)
  · rename_i e1
    exact .cons e1 .nil
  · rename_i e2
    exact .cons e2 .nil
  · exact .nil

namespace Reordered112
open Ordinary92

/-- The data of the common level of C92, with entries in another order, at two depths. -/
def common : Entries := [
  (s "motd", s "welcome"),
  (s "app::users", .map [(s "adam", .map [(s "uid", .int 1)]), (s "eve", .map [(s "home", s "/home/eve"), (s "uid", .int 7)])]),
  (s "lookup_options", .map [(s "app::users", .map [(s "merge", s "deep")])])]

def levelsTwo : List Level := [
  ⟨"nodes".toList, [.text "nodes/".toList, .var "node".toList ["name".toList], .text ".yaml".toList], some nodeData⟩,
  ⟨"sites".toList, [.text "sites/".toList, .var "site".toList [], .text ".yaml".toList], none⟩,
  ⟨"common".toList, [.text "common.yaml".toList], some common⟩]

def worldTwo : Env :=
  { mk (configOf levelsTwo) [("/h/data/nodes/web.yaml".toList, .map nodeData), ("/h/data/common.yaml".toList, .map common)] with
    top := .mux, muxFns := some [.config, .env] }

theorem statelessTwo : StatelessEnv worldTwo := by
  refine ⟨.inr ⟨rfl, [.env], rfl, by simp⟩, fun fs f h hf => ?_, (fun _ _ h => nomatch h), (fun _ _ _ h => nomatch h)⟩
  cases h
  rcases List.mem_cons.1 hf with h | h
  · subst h; trivial
  · rw [List.mem_singleton.1 h]; trivial

/-- The files are the same, but for the order. -/
theorem sameData : List.Forall₂ SameButOrderData levels levelsTwo := by
  refine .cons (.some .same) (.cons .none (.cons (.some ?_) .nil))
  refine .also (b := .map [(s "lookup_options", .map [(s "app::users", .map [(s "merge", s "deep")])]), (s "motd", s "welcome"),
    (s "app::users", .map [(s "adam", .map [(s "uid", .int 1)]), (s "eve", .map [(s "home", s "/home/eve"), (s "uid", .int 7)])])]) ?_ ?_
  · refine .value (es := [(s "lookup_options", .map [(s "app::users", .map [(s "merge", s "deep")])]), (s "motd", s "welcome")]) (fs := []) ?_
    refine .also (.moved (List.Perm.swap _ _ [])) ?_
    exact .value (es := [(s "adam", .map [(s "uid", .int 1)])]) (fs := []) (.moved (List.Perm.swap _ _ []))
  · exact .moved (List.perm_append_comm (l₁ := [_]) (l₂ := [_, _]))

theorem same_paths {l : Level} (h : l ∈ levelsTwo) : ∃ m ∈ levels, m.name = l.name ∧ m.path = l.path := by
  simp only [levelsTwo, List.mem_cons, List.not_mem_nil, or_false] at h
  rcases h with rfl | rfl | rfl
  · exact ⟨_, by simp [levels], rfl, rfl⟩
  · exact ⟨⟨"sites".toList, [.text "sites/".toList, .var "site".toList [], .text ".yaml".toList], none⟩, by simp [levels], rfl, rfl⟩
  · exact ⟨⟨"common".toList, [.text "common.yaml".toList], some commonData⟩, by simp [levels], rfl, rfl⟩

theorem ordinaryTwo : Ordinary worldTwo scope levelsTwo where
  config := rfl
  named := by decide
  distinct := by decide
  paths := fun l h => by
    obtain ⟨m, hm, _, e⟩ := same_paths h
    have := ordinary.paths m hm
    unfold Level.written at this ⊢
    rw [e] at this
    exact this
  vars := fun l h => by
    obtain ⟨m, hm, _, e⟩ := same_paths h
    rw [← e]
    exact ordinary.vars m hm
  dataDir := ordinary.dataDir
  pluginDir := ordinary.pluginDir
  there := by
    intro l hl es he
    simp only [levelsTwo, List.mem_cons, List.not_mem_nil, or_false] at hl
    rcases hl with rfl | rfl | rfl
    · cases he
      have hf : Level.file worldTwo scope ⟨"nodes".toList, [.text "nodes/".toList, .var "node".toList ["name".toList], .text ".yaml".toList], some nodeData⟩ =
        "/h/data/nodes/web.yaml".toList := by decide +kernel
      rw [hf]
      refine ⟨by decide +kernel, by rfl, ?_⟩
      simp [WF_map, nodeData, s, UniqueKeys]
    · cases he
    · cases he
      have hf : Level.file worldTwo scope ⟨"common".toList, [.text "common.yaml".toList], some common⟩ =
        "/h/data/common.yaml".toList := by decide +kernel
      rw [hf]
      refine ⟨by decide +kernel, by rfl, ?_⟩
      simp [WF_map, common, s, UniqueKeys]
  absent := by
    have : ∀ l ∈ levelsTwo, l.data.isNone = true → worldTwo.stat (l.file worldTwo scope) = false := by decide +kernel
    exact fun l hl h => this l hl (by rw [h]; rfl)

theorem questionTwo : Question worldTwo scope levelsTwo "app::users".toList [] "deep".toList where
  setup := ordinaryTwo
  top := .inr ⟨rfl, rfl, by decide, by decide⟩
  part := question.part
  ordinary := by decide
  values := fun v hv => unmarked_of_marked ((by decide +kernel : ∀ v ∈ valuesOf levelsTwo "app::users".toList, marked v = false) v hv)
  options := by
    have : valuesOf levelsTwo "lookup_options".toList = valuesOf levels "lookup_options".toList := by decide +kernel
    rw [this]
    exact question.options
  merge := .said rfl (by decide +kernel)

/-- Not vacuous: users, merged deeply. -/
example : ∃ k v w, newKey "app::users".toList = .ok k ∧ Gives world (newInvocation scope none) k [] (.ok v) ∧
    Gives worldTwo (newInvocation scope none) k [] (.ok w) ∧ Option.Rel Reordered v w :=
  C112_order stateless statelessTwo rfl (.start scope none) (.start scope none) rfl rfl question questionTwo sameData (by decide) (fs := [])
    (fun f hf => nomatch hf) none none

example : Gives worldTwo (newInvocation scope none) ⟨"app::users.eve".toList, [.name "app::users".toList, .name "eve".toList]⟩ []
    (.ok (some (.map [(s "uid", .int 9), (s "shell", s "zsh"), (s "home", s "/home/eve")]))) :=
  (C81_answer worldTwo statelessTwo (.start scope none) rfl scope none _ [] _).2 (answer_of (n := 1) (m := 3) (by decide +kernel))

/-- Not vacuous: the users of a module, merged deeply because the options say so, and because the caller does. -/
example : ∃ k v w, newKey "app::users".toList = .ok k ∧ Gives Modular104.world (newInvocation Modular104.scope none) k [] (.ok v) ∧
    Gives Modular104.world (newInvocation Modular104.scope none) k BelowModules107.asked (.ok w) ∧ Option.Rel Reordered v w :=
  C112_modules (.start Modular104.scope none) (.start Modular104.scope none) rfl rfl Modular104.question BelowModules107.withQuestion Modular104.mainFills Modular104.appFills
    Modular104.mainFills Modular104.appFills rfl rfl (.cons .same .nil) (.cons .same .nil) (by decide) (fs := []) (fun f hf => nomatch hf) none none

end Reordered112

/-- C112: reordered values are those that dgo takes for equal. -/
theorem C112_reordered {a b : Value} (ha : WF a) : Reordered a b ↔ WF b ∧ equals a b = true :=
  ⟨fun h => reordered_equals h ha, fun h => equals_reordered ha h.1 h.2⟩

end Hiera
