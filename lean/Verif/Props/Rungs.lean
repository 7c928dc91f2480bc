import Verif.Lemmas.Rungs
import Verif.Props.StrategySaid

/-!
# C119: hierarchies with levels of every kind
-/

set_option autoImplicit false

namespace Hiera

open Value Spec

/-- The lookup of a key in such a set-up. -/
structure Spec.AskedIn (E : Env) (sc : Scope) (rs : List Rung) (root : Str) : Prop where
  setup : Laddered E sc rs
  top : UsualTop E root
  part : KeyPart root
  ordinary : root ≠ "lookup_options".toList
  values : ∀ v ∈ valuesOf (levelsIn E sc rs) root, Unmarked v
  options : ∀ v ∈ valuesOf (levelsIn E sc rs) "lookup_options".toList, Unmarked v ∧ OptionsSay root v
  together : Together (valuesOf (levelsIn E sc rs) "lookup_options".toList)

theorem saidIn_blanks {ls : List Level} {root st : Str} {opts : Entries} (h : StrategySaid ls root opts st) :
    StrategySaid (blank :: blank :: ls) root opts st := by
  cases h with
  | asked h => exact .asked h
  | askedWith h h' => exact .askedWith h h'
  | said h h' => exact .said h h'
  | saidWith h h' h2 h3 => exact .saidWith h h' h2 h3
  | default h h' => exact .default h h'

theorem rungs_made {E : Env} (he : StatelessEnv E) {s : St} (hs : Session E s) (hl : s.v.locked = []) {sc : Scope} {rs : List Rung}
    {root st : Str} {opts : Entries} (ha : AskedIn E sc rs root) (hsaid : StrategySaid (levelsIn E sc rs) root opts st) {ty : Option Value}
    (hty : (saidOf "convert_to".toList root (levelsIn E sc rs)).head? = ty) (honce : SaidOnce (saidOf "convert_to".toList root (levelsIn E sc rs)))
    (hm : Mergeable st (valuesOf (levelsIn E sc rs) root)) (hd : st = "deep".toList → Together (valuesOf (levelsIn E sc rs) root))
    {fs : List Str} (hf : ∀ f ∈ fs, KeyPart f) (ex : Option ExplOpts) :
    ∃ k v lo, newKey (joinDots (root :: fs)) = .ok k ∧ Textbook st (valuesOf (levelsIn E sc rs) root) v ∧ (∀ y, v = some y → Unmarked y) ∧
      lo.bind (fun m => Entries.getS m "convert_to".toList) = ty ∧
      (∀ e, extractConversion E lo = .panic e → Gives E (nextInvocation s sc ex) k opts (.panic e)) ∧
      ∀ c r, extractConversion E lo = .ok c → convert E v c = r → (∀ y, r = .ok (some y) → Unmarked y) →
        Gives E (nextInvocation s sc ex) k opts (fieldOfMade fs r) := by
  obtain ⟨stv, hst⟩ := mergeable_strategy hm
  obtain ⟨mo, hsaid⟩ := strategy_either (ls := blank :: blank :: levelsIn E sc rs) (fun _ hv => rungs_WF ha.setup hv)
    (fun v hv => (ha.options v hv).2) (saidIn_blanks hsaid) (ty := ty) hty honce (rs.map (resolvedRung E sc))
  obtain ⟨stv', hst', ho, hc'⟩ := strategy_options (mo := mo) hst
  have hkind : (stv' = .unique → st = "unique".toList) ∧ (stv' = .hash → st = "hash".toList) ∧ ∀ o, stv' = .deep o → st = "deep".toList := by
    have := hm.1
    simp only [List.mem_cons, List.not_mem_nil, or_false] at this
    rcases this with rfl | rfl | rfl | rfl
    · cases hst'; exact ⟨nofun, nofun, nofun⟩
    · cases hst'; exact ⟨fun _ => rfl, nofun, nofun⟩
    · cases hst'; exact ⟨nofun, fun _ => rfl, nofun⟩
    · cases hst'; exact ⟨nofun, nofun, fun _ _ => rfl⟩
  have hn : NoneBetween stv' (valuesOf (levelsIn E sc rs) root) := by
    cases stv' with
    | first => trivial
    | unique => trivial
    | hash => exact fun a b c h _ _ => hm.2.1 (hkind.2.1 rfl) b (h.subset (by simp))
    | deep o => exact hd (hkind.2.2 o rfl)
  obtain ⟨v, lo, h1, h2, h3, h4⟩ := site_answer he hs hl ha.top ha.part ha.ordinary
    (refSite_rungs ha.setup 0 (fun v hv => (ha.options v hv).1) ha.together) hsaid (joinDots (root :: fs)) fs ex hst'
    (fun r C => hierarchy_rungs ha.setup r C ⟨root, [.name root]⟩ stv' ha.values hn (fun h => hm.2.2 (hkind.1 h)))
  have hclean := outcome_clean (p := fun s => ¬Marked s) (ls := blank :: blank :: levelsIn E sc rs) (key := root) stv' ha.values
  refine ⟨_, v, lo, segments_key (by simp) (fun y hy => ?_), ?_, fun y hy => ?_, h2, h3, h4⟩
  · rcases List.mem_cons.1 hy with rfl | hy
    · exact ha.part
    · exact hf y hy
  · have := outcome_textbook (ls := blank :: blank :: levelsIn E sc rs) (key := root) (fun v hv => rungs_WF ha.setup hv) hst hm
    rw [show Key.root ⟨root, [.name root]⟩ = root from rfl, ho, hc'] at h1
    rcases h1 with rfl | rfl
    · exact this.1
    · exact this.2
  · cases hy
    rcases h1 with h | h
    · exact hclean y h.symm
    · obtain ⟨x, hx, rfl⟩ := Option.map_eq_some_iff.1 h.symm
      exact clean_convertValue stv' (hclean x hx)

/-- C119: from the configuration file to the answer, where a level may have one path or several, patterns of file names, or a path
for every element of a variable, and a data directory and a format of its own: a lookup gives the merge of the values that the files
have for the key, in the order of the levels and, in a level, of its files; and what the merge has in the place of a dotted key. -/
theorem C119_textbook {E : Env} (he : StatelessEnv E) {s : St} (hs : Session E s) (hl : s.v.locked = []) {sc : Scope} {rs : List Rung}
    {root st : Str} {opts : Entries} (ha : AskedIn E sc rs root) (hsaid : StrategySaid (levelsIn E sc rs) root opts st)
    (hc : saidOf "convert_to".toList root (levelsIn E sc rs) = []) (hm : Mergeable st (valuesOf (levelsIn E sc rs) root))
    (hd : st = "deep".toList → Together (valuesOf (levelsIn E sc rs) root)) {fs : List Str}
    (hf : ∀ f ∈ fs, KeyPart f) (ex : Option ExplOpts) :
    ∃ k v, newKey (joinDots (root :: fs)) = .ok k ∧ Textbook st (valuesOf (levelsIn E sc rs) root) v ∧
      Gives E (nextInvocation s sc ex) k opts (.ok (v.bind (fieldOf fs))) := by
  obtain ⟨k, v, lo, h1, h2, hu, h3, _, h4⟩ := rungs_made he hs hl ha hsaid (ty := none) (by rw [hc]; rfl) (by rw [hc]; exact .nil) hm hd hf ex
  exact ⟨k, v, h1, h2, h4 none (.ok v) (extract_said h3 .asIs) (by cases v <;> rfl) (fun y hy => hu y (by cases hy; rfl))⟩

/-- C117, partially, with levels of every kind: the merge of the values of the files is converted to the type that the highest file
that says so says, with the arguments that it says, and a dotted key gives a field of the result. Missing: files that say it with more
than one array. -/
theorem C117_levels_partial {E : Env} (he : StatelessEnv E) {s : St} (hs : Session E s) (hl : s.v.locked = []) {sc : Scope} {rs : List Rung}
    {root st : Str} {opts : Entries} (ha : AskedIn E sc rs root) (hsaid : StrategySaid (levelsIn E sc rs) root opts st) {ty : Option Value}
    (hty : (saidOf "convert_to".toList root (levelsIn E sc rs)).head? = ty) (honce : SaidOnce (saidOf "convert_to".toList root (levelsIn E sc rs)))
    {c : Option (Nat × Option (List Value))} (ht : TypeSaid E ty c)
    (hm : Mergeable st (valuesOf (levelsIn E sc rs) root)) (hd : st = "deep".toList → Together (valuesOf (levelsIn E sc rs) root))
    {fs : List Str} (hf : ∀ f ∈ fs, KeyPart f) (ex : Option ExplOpts) :
    ∃ k v, newKey (joinDots (root :: fs)) = .ok k ∧ Textbook st (valuesOf (levelsIn E sc rs) root) v ∧
      ∀ r, Converted E c v r → (∀ y, r = .ok (some y) → Unmarked y) → Gives E (nextInvocation s sc ex) k opts (fieldOfMade fs r) := by
  obtain ⟨k, v, lo, h1, h2, _, h3, _, h4⟩ := rungs_made he hs hl ha hsaid hty honce hm hd hf ex
  exact ⟨k, v, h1, h2, fun r hr hu => h4 c r (extract_said h3 ht) (convert_of hr) hu⟩

/-- C117, with levels of every kind: if there is no such type, then the lookup fails. -/
theorem C117_levels_no_type {E : Env} (he : StatelessEnv E) {s : St} (hs : Session E s) (hl : s.v.locked = []) {sc : Scope} {rs : List Rung}
    {root st : Str} {opts : Entries} (ha : AskedIn E sc rs root) (hsaid : StrategySaid (levelsIn E sc rs) root opts st) {n : Str} {as : List Value}
    (hty : (saidOf "convert_to".toList root (levelsIn E sc rs)).head? = some (.str n) ∨
      (saidOf "convert_to".toList root (levelsIn E sc rs)).head? = some (.arr (.str n :: as)))
    (honce : SaidOnce (saidOf "convert_to".toList root (levelsIn E sc rs))) {e : Err} (ht : E.parseType n = .panic e)
    (hm : Mergeable st (valuesOf (levelsIn E sc rs) root)) (hd : st = "deep".toList → Together (valuesOf (levelsIn E sc rs) root))
    {fs : List Str} (hf : ∀ f ∈ fs, KeyPart f) (ex : Option ExplOpts) :
    ∃ k, newKey (joinDots (root :: fs)) = .ok k ∧ Gives E (nextInvocation s sc ex) k opts (.panic e) := by
  obtain ⟨k, v, lo, h1, _, _, h2, h3, _⟩ := rungs_made he hs hl ha hsaid rfl honce hm hd hf ex
  exact ⟨k, h1, h3 e (extract_missing h2 hty ht)⟩

/-! ### An example -/

namespace Rungs119

open World

/-- A file for each role, then JSON files of the environment, then two files of which one is not there. -/
def rungs : List Rung := [
  ⟨"roles".toList, none, false, .mapped "roles".toList [] "role".toList [.text "role/".toList, .var "role".toList [], .text ".yaml".toList]⟩,
  ⟨"extra".toList, some [.text "/etc/".toList, .var "env".toList []], true, .glob [.text "*.json".toList]⟩,
  ⟨"common".toList, none, false, .paths [[.text "site.yaml".toList], [.text "common.yaml".toList]]⟩]

/-- As they are written, where JSON is the default. -/
def steps : List Step := [
  ⟨"roles".toList, none, some false, .mapped "roles".toList [] "role".toList [.text "role/".toList, .var "role".toList [], .text ".yaml".toList]⟩,
  ⟨"extra".toList, some [.text "/etc/".toList, .var "env".toList []], none, .glob [.text "*.json".toList]⟩,
  ⟨"common".toList, none, some false, .paths [[.text "site.yaml".toList], [.text "common.yaml".toList]]⟩]

def preset : Option Preset := some ⟨none, some true⟩

def web : Entries := [(s "conf", .map [(s "a", s "x")])]
def db : Entries := [(s "conf", .map [(s "b", s "y")]), (s "port", s "1f")]
def extra : Entries := [(s "conf", .map [(s "b", s "z"), (s "c", s "w")])]
def said : Entries := [(s "conf", .map [(s "merge", s "hash")]), (s "port", .map [(s "convert_to", .arr [s "Integer", .int 16])])]
def common : Entries := [(s "lookup_options", .map said), (s "conf", .map [(s "d", s "q")]), (s "port", s "50")]

def files : List (Str × Value) := [("/h/data/role/web.yaml".toList, .map web), ("/h/data/role/db.yaml".toList, .map db),
  ("/etc/prod/x.json".toList, .map extra), ("/h/data/common.yaml".toList, .map common)]

def world : Env :=
  { mk (configSaid preset steps) files with
    top := .mux, muxFns := some [.config, .env],
    readJson := fun p => if p = "/etc/prod/x.json".toList then .value (.map extra) else .missing,
    glob := fun p => if p = "/etc/prod/*.json".toList then ["/etc/prod/x.json".toList] else [],
    parseType := fun n => if n = "Integer".toList then .ok 1 else .panic (.other 9),
    newValue := fun _ v as => .ok (.arr (v :: as.getD [])) }

def vars : Entries := [(s "roles", .arr [s "web", s "db"]), (s "env", s "prod")]

def scope : Scope := .nested (.map []) (.map vars)

theorem stateless : StatelessEnv world := by
  refine ⟨.inr ⟨rfl, [.env], rfl, by simp⟩, fun fs f h hf => ?_, (fun _ _ h => nomatch h), (fun _ _ _ h => nomatch h)⟩
  cases h
  rcases List.mem_cons.1 hf with h | h
  · subst h; trivial
  · rw [List.mem_singleton.1 h]; trivial

theorem files_roles : Rung.files world scope ⟨"roles".toList, none, false, .mapped "roles".toList [] "role".toList
    [.text "role/".toList, .var "role".toList [], .text ".yaml".toList]⟩ = ["/h/data/role/web.yaml".toList, "/h/data/role/db.yaml".toList] := by
  decide +kernel

theorem files_extra : Rung.files world scope ⟨"extra".toList, some [.text "/etc/".toList, .var "env".toList []], true, .glob [.text "*.json".toList]⟩ =
    ["/etc/prod/x.json".toList] := by
  decide +kernel

theorem files_common : Rung.files world scope ⟨"common".toList, none, false, .paths [[.text "site.yaml".toList], [.text "common.yaml".toList]]⟩ =
    ["/h/data/site.yaml".toList, "/h/data/common.yaml".toList] := by
  decide +kernel

theorem levels_eq : levelsIn world scope rungs = [
    ⟨"/h/data/role/web.yaml".toList, [.text "/h/data/role/web.yaml".toList], some web⟩,
    ⟨"/h/data/role/db.yaml".toList, [.text "/h/data/role/db.yaml".toList], some db⟩,
    ⟨"/etc/prod/x.json".toList, [.text "/etc/prod/x.json".toList], some extra⟩,
    ⟨"/h/data/site.yaml".toList, [.text "/h/data/site.yaml".toList], none⟩,
    ⟨"/h/data/common.yaml".toList, [.text "/h/data/common.yaml".toList], some common⟩] := by
  unfold levelsIn rungs
  simp only [List.flatMap_cons, List.flatMap_nil, Rung.levels, files_roles, files_extra, files_common]
  rfl

theorem values_eq : valuesOf (levelsIn world scope rungs) "conf".toList =
    [.map [(s "a", s "x")], .map [(s "b", s "y")], .map [(s "b", s "z"), (s "c", s "w")], .map [(s "d", s "q")]] := by
  rw [levels_eq]; rfl

theorem options_eq : valuesOf (levelsIn world scope rungs) "lookup_options".toList = [.map said] := by
  rw [levels_eq]; rfl

theorem laddered : Laddered world scope rungs where
  config := .as preset steps rfl rfl (by nofun)
  named := by
    intro r hr
    simp only [rungs, List.mem_cons, List.not_mem_nil, or_false] at hr
    rcases hr with rfl | rfl | rfl <;> decide
  distinct := by
    show ["roles".toList, "extra".toList, "common".toList].Nodup
    decide
  texts := by
    intro r hr
    simp only [rungs, List.mem_cons, List.not_mem_nil, or_false] at hr
    rcases hr with rfl | rfl | rfl
    · refine ⟨by show [_] ≠ []; simp, fun p hp => ?_⟩
      change p ∈ [[.text "role/".toList, .var "role".toList [], .text ".yaml".toList]] at hp
      cases List.mem_singleton.1 hp
      refine ⟨by decide, fun x hx => ?_⟩
      simp only [List.mem_cons, List.not_mem_nil, or_false] at hx
      rcases hx with rfl | rfl | rfl
      · show '%' ∉ _; decide
      · exact ⟨⟨by decide, by decide⟩, by simp⟩
      · show '%' ∉ _; decide
    · refine ⟨by show [_] ≠ []; simp, fun p hp => ?_⟩
      change p ∈ [[.text "*.json".toList], [.text "/etc/".toList, .var "env".toList []]] at hp
      simp only [List.mem_cons, List.not_mem_nil, or_false] at hp
      rcases hp with rfl | rfl
      · refine ⟨by decide, fun x hx => ?_⟩
        cases List.mem_singleton.1 hx
        show '%' ∉ _; decide
      · refine ⟨by decide, fun x hx => ?_⟩
        simp only [List.mem_cons, List.not_mem_nil, or_false] at hx
        rcases hx with rfl | rfl
        · show '%' ∉ _; decide
        · exact ⟨⟨by decide, by decide⟩, by simp⟩
    · refine ⟨by show [_, _] ≠ []; simp, fun p hp => ?_⟩
      change p ∈ [[.text "site.yaml".toList], [.text "common.yaml".toList]] at hp
      simp only [List.mem_cons, List.not_mem_nil, or_false] at hp
      rcases hp with rfl | rfl
      · refine ⟨by decide, fun x hx => ?_⟩
        cases List.mem_singleton.1 hx
        show '%' ∉ _; decide
      · refine ⟨by decide, fun x hx => ?_⟩
        cases List.mem_singleton.1 hx
        show '%' ∉ _; decide
  mapped := by
    intro r hr x fs as p h
    simp only [rungs, List.mem_cons, List.not_mem_nil, or_false] at hr
    rcases hr with rfl | rfl | rfl
    · cases h
      exact ⟨⟨by decide, by decide⟩, by simp, by decide⟩
    · cases h
    · cases h
  vars := by
    intro x v h
    change (match Entries.getS vars x with | some v => some v | none => none) = some v at h
    cases hx : Entries.getS vars x with
    | none => rw [hx] at h; cases h
    | some w =>
      rw [hx] at h
      cases h
      obtain ⟨e, he, _, rfl⟩ := Entries.get_mem hx
      exact unmarked_of_marked ((by decide : ∀ e ∈ vars, marked e.2 = false) e he)
  dataDir := fun h => by have := (hasMarker_iff _).2 h; revert this; show hasMarker "data".toList = true → False; decide
  pluginDir := fun h => by have := (hasMarker_iff _).2 h; revert this; show hasMarker "plugin".toList = true → False; decide
  data := by
    intro r hr f hf hst
    simp only [rungs, List.mem_cons, List.not_mem_nil, or_false] at hr
    rcases hr with rfl | rfl | rfl
    · rw [files_roles] at hf
      simp only [List.mem_cons, List.not_mem_nil, or_false] at hf
      rcases hf with rfl | rfl
      · exact ⟨web, rfl, by simp [web, s, WF_map, UniqueKeys]⟩
      · exact ⟨db, rfl, by simp [db, s, WF_map, UniqueKeys]⟩
    · rw [files_extra] at hf
      cases List.mem_singleton.1 hf
      exact ⟨extra, rfl, by simp [extra, s, WF_map, UniqueKeys]⟩
    · rw [files_common] at hf
      simp only [List.mem_cons, List.not_mem_nil, or_false] at hf
      rcases hf with rfl | rfl
      · cases hst
      · exact ⟨common, rfl, by simp [common, said, s, WF_map, WF_arr, UniqueKeys]⟩
  matched := by
    intro p f hf
    change f ∈ (if p = "/etc/prod/*.json".toList then ["/etc/prod/x.json".toList] else []) at hf
    split at hf
    · cases List.mem_singleton.1 hf; rfl
    · cases hf

theorem asked : AskedIn world scope rungs "conf".toList where
  setup := laddered
  top := .inr ⟨rfl, rfl, by decide, by decide⟩
  part := ⟨by unfold Unquoted; decide, by decide, alpha_not_int (by decide)⟩
  ordinary := by decide
  values := by
    rw [values_eq]
    intro v hv
    exact unmarked_of_marked ((by decide : ∀ v ∈ [Value.map [(s "a", s "x")], .map [(s "b", s "y")], .map [(s "b", s "z"), (s "c", s "w")], .map [(s "d", s "q")]],
      marked v = false) v hv)
  options := by
    rw [options_eq]
    intro v hv
    cases List.mem_singleton.1 hv
    refine ⟨unmarked_of_marked (by decide), _, rfl, fun o ho => ?_⟩
    have e : Entries.getS said "conf".toList = some (.map [(s "merge", s "hash")]) := rfl
    rw [e] at ho
    cases ho
    exact ⟨_, rfl⟩
  together := by
    rw [options_eq]
    intro a b c h
    have := h.length_le
    simp at this

theorem strategy : StrategySaid (levelsIn world scope rungs) "conf".toList [] "hash".toList := by
  rw [levels_eq]
  exact .said rfl rfl

theorem mergeable : Mergeable "hash".toList (valuesOf (levelsIn world scope rungs) "conf".toList) :=
  ⟨by decide, fun _ v hv => by
    rw [values_eq] at hv
    simp only [List.mem_cons, List.not_mem_nil, or_false] at hv
    rcases hv with rfl | rfl | rfl | rfl <;> exact ⟨_, rfl⟩, fun h => absurd h (by decide)⟩

/-- `conf.b` is what the file of the second role says, not what the files of the environment say. -/
example {st : St} (hs : Session world st) (hl : st.v.locked = []) : ∃ k, newKey "conf.b".toList = .ok k ∧
    Gives world (nextInvocation st scope none) k [] (.ok (some (s "y"))) := by
  obtain ⟨k, v, h1, h2, h3⟩ := C119_textbook stateless hs hl asked strategy (by rw [levels_eq]; rfl) mergeable
    (fun h => absurd h (by decide)) (fs := ["b".toList]) (fun f hf => by
      cases List.mem_singleton.1 hf
      exact ⟨by unfold Unquoted; decide, by decide, alpha_not_int (by decide)⟩) none
  refine ⟨k, h1, ?_⟩
  rw [values_eq] at h2
  have hv : v.bind (fieldOf ["b".toList]) = some (s "y") := by
    generalize hst : "hash".toList = st at h2
    generalize hvs : [Value.map [(s "a", s "x")], .map [(s "b", s "y")], .map [(s "b", s "z"), (s "c", s "w")], .map [(s "d", s "q")]] = vs at h2
    cases h2 with
    | nothing => cases hvs
    | first => exact absurd hst (by decide)
    | unique => exact absurd hst (by decide)
    | uniqueOne => exact absurd hst (by decide)
    | deep => exact absurd hst (by decide)
    | @hash as ws rs _ h =>
      have hvs : [[(s "a", s "x")], [(s "b", s "y")], [(s "b", s "z"), (s "c", s "w")], [(s "d", s "q")]] = as :: ws :=
        List.map_injective_iff.2 (fun _ _ h => Value.map.inj h) hvs
      have hb := h (s "b") (by simp [s])
      rw [← hvs] at hb
      show (Entries.getS rs "b".toList).bind (fieldOf []) = _
      rw [show Entries.getS rs "b".toList = some (s "y") from hb]
      rfl
  rw [hv] at h3
  exact h3

theorem ports_eq : valuesOf (levelsIn world scope rungs) "port".toList = [s "1f", s "50"] := by
  rw [levels_eq]; rfl

theorem types_eq : saidOf "convert_to".toList "port".toList (levelsIn world scope rungs) = [.arr [s "Integer", .int 16]] := by
  rw [levels_eq]; rfl

theorem asked_port : AskedIn world scope rungs "port".toList where
  setup := laddered
  top := .inr ⟨rfl, rfl, by decide, by decide⟩
  part := ⟨by unfold Unquoted; decide, by decide, alpha_not_int (by decide)⟩
  ordinary := by decide
  values := by
    rw [ports_eq]
    intro v hv
    exact unmarked_of_marked ((by decide : ∀ v ∈ [s "1f", s "50"], marked v = false) v hv)
  options := by
    rw [options_eq]
    intro v hv
    cases List.mem_singleton.1 hv
    refine ⟨unmarked_of_marked (by decide), _, rfl, fun o ho => ?_⟩
    have e : Entries.getS said "port".toList = some (.map [(s "convert_to", .arr [s "Integer", .int 16])]) := rfl
    rw [e] at ho
    cases ho
    exact ⟨_, rfl⟩
  together := asked.together

/-- `port` is what the file of the second role says, converted as the last file says. -/
example {st : St} (hs : Session world st) (hl : st.v.locked = []) : ∃ k, newKey "port".toList = .ok k ∧
    Gives world (nextInvocation st scope none) k [] (.ok (some (.arr [s "1f", .int 16]))) := by
  obtain ⟨k, v, h1, h2, h3⟩ := C117_levels_partial stateless hs hl asked_port (st := "first".toList) (opts := [])
    (by rw [levels_eq]; exact .default rfl rfl) rfl (by rw [types_eq]; exact List.pairwise_singleton ..) (c := some (1, some [.int 16]))
    (by rw [types_eq]; exact .args rfl) ⟨by decide, fun h => absurd h (by decide), fun h => absurd h (by decide)⟩
    (fun h => absurd h (by decide)) (fs := []) nofun none
  refine ⟨k, h1, ?_⟩
  rw [ports_eq] at h2
  have hv : v = some (s "1f") := by
    generalize hst : "first".toList = st at h2
    generalize hvs : [s "1f", s "50"] = vs at h2
    cases h2 with
    | nothing => cases hvs
    | first => cases hvs; rfl
    | unique => exact absurd hst (by decide)
    | uniqueOne => exact absurd hst (by decide)
    | deep => exact absurd hst (by decide)
    | hash => exact absurd hst (by decide)
  subst hv
  exact h3 (.ok (some (.arr [s "1f", .int 16]))) (.made rfl) (fun y hy => by cases hy; exact unmarked_of_marked (by decide))

example : ∃ st, Session world st ∧ st.v.locked = [] := ⟨_, .start (.map []) none, rfl⟩

end Rungs119

end Hiera
