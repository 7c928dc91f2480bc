import Verif.Props.Rungs
import Verif.Props.Shell
import Verif.Props.ReferringOne

/-!
# C120: levels of every kind, whose data refers to variables and other keys
-/

set_option autoImplicit false

namespace Hiera

open Value Spec World

/-- The values can be merged and, by a deep merge, none keeps apart two others that would be merged without it. -/
def Spec.MergeableAny (st : Str) (vs : List Value) : Prop := Mergeable st vs ∧ (st = "deep".toList → Together vs)

/-- The set-up: the files of the levels are written as `ls` says, in order. `K` are the keys in reach, and references go from a key to
keys of a lower rank. -/
structure Spec.ReferringIn (E : Env) (sc : Scope) (rs : List Rung) (ls : List Sheet) (K : Str → Prop) (rank : Str → Nat) : Prop where
  setup : Laddered E sc rs
  files : ls.map Sheet.level = levelsIn E sc rs
  rendered : ∀ v, NoPercent v → '%' ∉ E.render v
  options : ∀ v ∈ valuesOf (ls.map Sheet.level) "lookup_options".toList, Unmarked v
  together : Together (valuesOf (ls.map Sheet.level) "lookup_options".toList)
  legible : ∀ k, K k → Legible E sc ls k
  refs : ∀ k, K k → ∀ t ∈ templatesOf ls k, ∀ x fs, DataPiece.key x fs ∈ t.uses → K x ∧ rank x < rank k ∧
    ∀ vs st, MeantL E sc ls (templatesOf ls x) vs → MergedBy (ls.map Sheet.level) x [] st → MergeableAny st vs

theorem mergedBy_blanks {ls : List Level} {root st : Str} {opts : Entries} (h : MergedBy ls root opts st) :
    MergedBy (blank :: blank :: ls) root opts st := by
  cases h with
  | asked h => exact .asked h
  | said h h' => exact .said h h'
  | default h h' => exact .default h h'

theorem rungs_sheeted {E : Env} {sc : Scope} {rs : List Rung} {ls : List Sheet} {K : Str → Prop} {rank : Str → Nat}
    (hr : ReferringIn E sc rs ls K rank) :
    Sheeted MergeableAny E sc ls K rank ⟨rs.map (resolvedRung E sc),
      asMap (outcome (.deep []) (blank :: blank :: levelsIn E sc rs) "lookup_options".toList)⟩ where
  site := refSite_rungs hr.setup 0 (fun v hv => hr.options v (by rw [hr.files]; exact hv)) (by rw [← hr.files]; exact hr.together)
  strategy := fun ho hb => strategy_of (ls := blank :: blank :: levelsIn E sc rs) (fun _ hv => rungs_WF hr.setup hv) _
    (fun v hv => ho v (by rw [hr.files]; exact hv)) (mergedBy_blanks (by rw [← hr.files]; exact hb))
  hierarchy := fun r C key st stv ns h hw hst hm => by
    rw [hr.files] at h
    have hkind : (stv = .unique → st = "unique".toList) ∧ (stv = .hash → st = "hash".toList) ∧ ∀ o, stv = .deep o → st = "deep".toList := by
      have := hm.1.1
      simp only [List.mem_cons, List.not_mem_nil, or_false] at this
      rcases this with rfl | rfl | rfl | rfl
      · cases hst; exact ⟨nofun, nofun, nofun⟩
      · cases hst; exact ⟨fun _ => rfl, nofun, nofun⟩
      · cases hst; exact ⟨nofun, fun _ => rfl, nofun⟩
      · cases hst; exact ⟨nofun, nofun, fun _ _ => rfl⟩
    have hn : NoneBetween stv (valuesOf ns key) := by
      cases stv with
      | first => trivial
      | unique => trivial
      | hash => exact fun a b c h _ _ => hm.1.2.1 (hkind.2.1 rfl) b (h.subset (by simp))
      | deep o => exact hm.2 (hkind.2.2 o rfl)
    rw [hierarchy_read hr.setup r C ⟨key, [.name key]⟩ stv h hw hn (fun h => hm.1.2.2 (hkind.1 h))]
    show pure (outcome stv (blank :: blank :: ns) key) = _
    rw [(outcome_combine hst (ls := blank :: blank :: ns) (key := key) hm.1.2.2).1]
    rfl
  mergeable := fun h => h.1
  rendered := hr.rendered
  legible := hr.legible
  refs := hr.refs

/-- C120: where a level may have one path or several, patterns of file names, or a path for every element of a variable, and a data
directory and a format of its own, and the data refers to variables and, without cycles, to other keys: a lookup gives the merge of what
the data of the files means, in the order of the levels and, in a level, of its files, where references mean the values of the variables
and the answers for the other keys. -/
theorem C120_referring {E : Env} (he : StatelessEnv E) {s : St} (hs : Session E s) (hl : s.v.locked = []) {sc : Scope} {rs : List Rung}
    {ls : List Sheet} {K : Str → Prop} {rank : Str → Nat} (hr : ReferringIn E sc rs ls K rank) {root st : Str} (hk : K root)
    (htop : ReferringTop E ls K root) {opts : Entries} (hb : MergedBy (ls.map Sheet.level) root opts st)
    (hm : ∀ vs, MeantL E sc ls (templatesOf ls root) vs → MergeableAny st vs) {fs : List Str} (hf : ∀ f ∈ fs, KeyPart f) (ex : Option ExplOpts) :
    ∃ k v, newKey (joinDots (root :: fs)) = .ok k ∧ Answered E sc ls root opts v ∧
      Gives E (nextInvocation s sc ex) k opts (.ok (v.bind (fieldOf fs))) :=
  sheets_lookup he hs hl (rungs_sheeted hr) hk htop hb hm hf ex

/-- C120: if equal values are written in the same way, then there is one answer for a key, up to the order of the entries of hashes. -/
theorem C120_one {E : Env} {sc : Scope} {rs : List Rung} {ls : List Sheet} {K : Str → Prop} {rank : Str → Nat} (hr : ReferringIn E sc rs ls K rank)
    (hE : ∀ a b, WF a → WF b → equals a b = true → E.render a = E.render b) {key : Str} (hk : K key) {opts : Entries} {v w : Option Value}
    (h : Answered E sc ls key opts v) (h' : Answered E sc ls key opts w) :
    (v = none ∧ w = none) ∨ ∃ x y, v = some x ∧ w = some y ∧ equals x y = true := by
  have q := answered_one (fun k hk => (hr.legible k hk).written) (fun k hk t ht x fs hx => (hr.refs k hk t ht x fs hx).1) hE h hk w h'
  cases v with
  | none => exact .inl ⟨rfl, q.none_iff.1 rfl⟩
  | some v =>
    obtain ⟨y, rfl, e⟩ := q.some_left
    exact .inr ⟨v, y, rfl, rfl, e⟩

/-! ### From the shell, and of the server -/

/-- A name that leads to a key in reach, whose values can be merged in the way that the options or the lookup options say. -/
def Spec.AskableIn (E : Env) (sc : Scope) (ls : List Sheet) (K : Str → Prop) (opts : Entries) (name : Str) : Prop :=
  ∃ root fs st, name = joinDots (root :: fs) ∧ K root ∧ (∀ f ∈ fs, KeyPart f) ∧ MergedBy (ls.map Sheet.level) root opts st ∧
    ∀ vs, MeantL E sc ls (templatesOf ls root) vs → MergeableAny st vs

theorem referring_answer {E : Env} (he : StatelessEnv E) {s : St} (hs : Session E s) (hl : s.v.locked = []) {sc : Scope} {rs : List Rung}
    {ls : List Sheet} {K : Str → Prop} {rank : Str → Nat} (hr : ReferringIn E sc rs ls K rank) (htop : E.top = .mux)
    (hfn : E.muxFns = some [.config, .env]) (hK : ∀ k, K k → NotEnv k) {opts : Entries} {name : Str} (h : AskableIn E sc ls K opts name) :
    ∃ v, Promised E sc ls opts name v ∧ NameAnswer E sc opts name (.ok v) := by
  obtain ⟨root, fs, st, rfl, hk, hf, hb, hm⟩ := h
  obtain ⟨k, v, h1, h2, h3⟩ := C120_referring he hs hl hr hk (.inl ⟨htop, hfn, hK⟩) hb hm hf none
  exact ⟨_, .field h2, .key h1 ((C81_answer _ he hs hl _ none k opts _).1 h3)⟩

/-- C120: what `lookup` prints in such a set-up. -/
theorem C120_prints (A : Cli) (he : StatelessEnv A.types.env) {s : St} (hs : Session A.types.env s) (o : CommandOptions) {args : List Str}
    (hx : ¬Explains o) {dv : Option Value} {vars : Entries} (hp : Prepared A o none dv vars) {opts : Entries} (ho : MergeAsked o.merge opts)
    {rs : List Rung} {ls : List Sheet} {K : Str → Prop} {rank : Str → Nat} (hr : ReferringIn A.types.env (.nested A.scope (.map vars)) rs ls K rank)
    (htop : A.types.env.top = .mux) (hfn : A.types.env.muxFns = some [.config, .env]) (hK : ∀ k, K k → NotEnv k)
    (ha : ∀ a ∈ args, AskableIn A.types.env (.nested A.scope (.map vars)) ls K opts a) (hd : args.Nodup) :
    ∃ vs, List.Forall₂ (Promised A.types.env (.nested A.scope (.map vars)) ls opts) args vs ∧ ∀ out,
      (∃ n w, lookupAndRender A (eval A.types.env n) o args s.v = some (out, w)) ↔ Prints A o (.ok (shown o.lookupAll args vs dv)) out := by
  have hc : Readable A.types.env := newCfg_rungs hr.setup
  exact prints_answers A he hc hs o hx hp ho (fun a h => referring_answer he hs (session_locks he hc hs) hr htop hfn hK (ha a h)) hd

/-- C120 for the server: whatever was requested before, the answer to a request is 200 with what the data of the files means for the key,
as JSON, or 404 if that is nothing. -/
theorem C120_served (A : Cli) (he : StatelessEnv A.types.env) (base : CommandOptions) {v : View} (hv : Serving A base v) (hx : ¬Explains base)
    (hla : base.lookupAll = false) {key : Str} (hp : KeptPath ("/lookup/".toList ++ key)) (hk : '\n' ∉ key) (params : List (Str × Str)) (req : List Str)
    {dv : Option Value} {vars : Entries} (hq : Prepared A (restOptions base params req) none dv vars) {opts : Entries}
    (ho : MergeAsked (restOptions base params req).merge opts) {rs : List Rung} {ls : List Sheet} {K : Str → Prop} {rank : Str → Nat}
    (hr : ReferringIn A.types.env (.nested A.scope (.map vars)) rs ls K rank) (htop : A.types.env.top = .mux)
    (hfn : A.types.env.muxFns = some [.config, .env]) (hK : ∀ k, K k → NotEnv k)
    (ha : AskableIn A.types.env (.nested A.scope (.map vars)) ls K opts key) :
    ∃ x, Promised A.types.env (.nested A.scope (.map vars)) ls opts key x ∧ ∀ r : Response,
      (∃ n w, serve A (eval A.types.env n) base ("/lookup/".toList ++ key) params req v = some (r, w)) ↔
        match x.or dv with
        | none => r.code = 404 ∧ r.body = []
        | some y => ∃ out, Written A.render (.value y) "json".toList out ∧ match out with
          | .ok t => r.code = 200 ∧ r.body = t
          | .panic _ => r.code = 500 ∧ r.body = [] := by
  have hc : Readable A.types.env := newCfg_rungs hr.setup
  obtain ⟨s, hs, rfl⟩ := hv.session
  exact reply_answer A he hc base hs hx hla hp hk params req hq ho (referring_answer he hs (session_locks he hc hs) hr htop hfn hK ha)

/-! ### Not vacuous -/

namespace Rungs120
open Referring97 (nodeData commonData keys rank scope part vars written)

/-- A file for each name of the node, and two common files of which one is not there. -/
def rungs : List Rung := [
  ⟨"nodes".toList, some [.text "/etc/".toList, .var "node".toList ["name".toList]], false, .mapped "node".toList ["name".toList] "n".toList [.text "nodes/".toList, .var "n".toList [], .text ".yaml".toList]⟩,
  ⟨"common".toList, some [.text "/etc/".toList, .var "node".toList ["name".toList]], false, .paths [[.text "site.yaml".toList], [.text "common.yaml".toList]]⟩]

/-- As they are written, where a data directory is the default. -/
def steps : List Step := [
  ⟨"nodes".toList, none, none, .mapped "node".toList ["name".toList] "n".toList [.text "nodes/".toList, .var "n".toList [], .text ".yaml".toList]⟩,
  ⟨"common".toList, none, none, .paths [[.text "site.yaml".toList], [.text "common.yaml".toList]]⟩]

def preset : Option Preset := some ⟨some [.text "/etc/".toList, .var "node".toList ["name".toList]], none⟩

/-- The files, with the data of the examples for C97. -/
def sheets : List Sheet := [
  ⟨"/etc/web/nodes/web.yaml".toList, [.text "/etc/web/nodes/web.yaml".toList], some nodeData⟩,
  ⟨"/etc/web/site.yaml".toList, [.text "/etc/web/site.yaml".toList], none⟩,
  ⟨"/etc/web/common.yaml".toList, [.text "/etc/web/common.yaml".toList], some commonData⟩]

def world : Env :=
  { mk (configSaid preset steps) [("/etc/web/nodes/web.yaml".toList, .map (writtenE nodeData)), ("/etc/web/common.yaml".toList, .map (writtenE commonData))] with
    top := .mux, muxFns := some [.config, .env], render := fun v => if v = .int 8080 then "8080".toList else [] }

theorem stateless : StatelessEnv world := by
  refine ⟨.inr ⟨rfl, [.env], rfl, by simp⟩, fun fs f h hf => ?_, (fun _ _ h => nomatch h), (fun _ _ _ h => nomatch h)⟩
  cases h
  rcases List.mem_cons.1 hf with h | h
  · subst h; trivial
  · rw [List.mem_singleton.1 h]; trivial

theorem files_nodes : Rung.files world scope ⟨"nodes".toList, some [.text "/etc/".toList, .var "node".toList ["name".toList]], false, .mapped "node".toList ["name".toList] "n".toList
    [.text "nodes/".toList, .var "n".toList [], .text ".yaml".toList]⟩ = ["/etc/web/nodes/web.yaml".toList] := by
  decide +kernel

theorem files_common : Rung.files world scope ⟨"common".toList, some [.text "/etc/".toList, .var "node".toList ["name".toList]], false, .paths [[.text "site.yaml".toList], [.text "common.yaml".toList]]⟩ =
    ["/etc/web/site.yaml".toList, "/etc/web/common.yaml".toList] := by
  decide +kernel

theorem levels_eq : sheets.map Sheet.level = levelsIn world scope rungs := by
  unfold levelsIn rungs
  simp only [List.flatMap_cons, List.flatMap_nil, Rung.levels, files_nodes, files_common]
  rfl

theorem dir_ok : textWritten [.text "/etc/".toList, .var "node".toList ["name".toList]] ≠ [] ∧
    ∀ x ∈ [PathPiece.text "/etc/".toList, .var "node".toList ["name".toList]], x.Ok := by
  refine ⟨by decide, fun x hx => ?_⟩
  simp only [List.mem_cons, List.not_mem_nil, or_false] at hx
  rcases hx with rfl | rfl
  · show '%' ∉ _; decide
  · exact ⟨⟨by decide, by decide⟩, fun f hf => by cases List.mem_singleton.1 hf; exact ⟨by decide, by decide⟩⟩

theorem laddered : Laddered world scope rungs where
  config := .as preset steps rfl rfl (fun d hd => by cases hd; exact dir_ok)
  named := by
    intro r hr
    simp only [rungs, List.mem_cons, List.not_mem_nil, or_false] at hr
    rcases hr with rfl | rfl <;> decide
  distinct := by
    show ["nodes".toList, "common".toList].Nodup
    decide
  texts := by
    intro r hr
    simp only [rungs, List.mem_cons, List.not_mem_nil, or_false] at hr
    rcases hr with rfl | rfl
    · refine ⟨by show [_] ≠ []; simp, fun p hp => ?_⟩
      change p ∈ [[.text "nodes/".toList, .var "n".toList [], .text ".yaml".toList], [.text "/etc/".toList, .var "node".toList ["name".toList]]] at hp
      simp only [List.mem_cons, List.not_mem_nil, or_false] at hp
      rcases hp with rfl | rfl
      · refine ⟨by decide, fun x hx => ?_⟩
        simp only [List.mem_cons, List.not_mem_nil, or_false] at hx
        rcases hx with rfl | rfl | rfl
        · show '%' ∉ _; decide
        · exact ⟨⟨by decide, by decide⟩, by simp⟩
        · show '%' ∉ _; decide
      · exact dir_ok
    · refine ⟨by show [_, _] ≠ []; simp, fun p hp => ?_⟩
      change p ∈ [[.text "site.yaml".toList], [.text "common.yaml".toList], [.text "/etc/".toList, .var "node".toList ["name".toList]]] at hp
      simp only [List.mem_cons, List.not_mem_nil, or_false] at hp
      rcases hp with rfl | rfl | rfl
      · refine ⟨by decide, fun x hx => ?_⟩
        cases List.mem_singleton.1 hx
        show '%' ∉ _; decide
      · refine ⟨by decide, fun x hx => ?_⟩
        cases List.mem_singleton.1 hx
        show '%' ∉ _; decide
      · exact dir_ok
  mapped := by
    intro r hr x fs as p h
    simp only [rungs, List.mem_cons, List.not_mem_nil, or_false] at hr
    rcases hr with rfl | rfl
    · cases h
      exact ⟨⟨by decide, by decide⟩, fun f hf => by cases List.mem_singleton.1 hf; exact ⟨by decide, by decide⟩, by decide⟩
    · cases h
  vars := by
    intro x v hv
    have : ∀ e ∈ ([(s "node", .map [(s "name", s "web")])] : Entries), marked e.2 = false := by decide
    rw [Referring97.scope_get] at hv
    obtain ⟨e, he, _, rfl⟩ := Entries.get_mem hv
    exact unmarked_of_marked (this e he)
  dataDir := fun h => by have := (hasMarker_iff _).2 h; revert this; show hasMarker "data".toList = true → False; decide
  pluginDir := fun h => by have := (hasMarker_iff _).2 h; revert this; show hasMarker "plugin".toList = true → False; decide
  data := by
    intro r hr f hf hst
    simp only [rungs, List.mem_cons, List.not_mem_nil, or_false] at hr
    rcases hr with rfl | rfl
    · rw [files_nodes] at hf
      cases List.mem_singleton.1 hf
      refine ⟨writtenE nodeData, by rfl, ?_⟩
      simp [Value.WF, WFEntries, WFList, nodeData, writtenE, writtenL, Template.written]
    · rw [files_common] at hf
      simp only [List.mem_cons, List.not_mem_nil, or_false] at hf
      rcases hf with rfl | rfl
      · cases hst
      · refine ⟨writtenE commonData, by rfl, ?_⟩
        simp [Value.WF, WFEntries, WFList, commonData, writtenE, writtenL, Template.written]
  matched := fun _ _ hf => nomatch hf

/-- The same is written for a key as in the examples for C97. -/
theorem templates_eq (k : Str) : templatesOf sheets k = templatesOf Referring97.sheets k := rfl

theorem options_eq : valuesOf (sheets.map Sheet.level) "lookup_options".toList =
    valuesOf (Referring97.sheets.map Sheet.level) "lookup_options".toList := by decide +kernel

theorem merged {x st : Str} {opts : Entries} (h : MergedBy (sheets.map Sheet.level) x opts st) :
    MergedBy (Referring97.sheets.map Sheet.level) x opts st := by
  cases h with
  | asked h => exact .asked h
  | said h h' => exact .said h (by rw [← options_eq]; exact h')
  | default h h' => exact .default h (by rw [← options_eq]; exact h')

theorem first {x : Str} (hx : x = "app::host".toList ∨ x = "app::port".toList ∨ x = "app::url".toList) (vs : List Value) (st : Str)
    (h : MergedBy (sheets.map Sheet.level) x [] st) : MergeableAny st vs := by
  refine ⟨Referring97.first hx vs st (merged h), fun e => ?_⟩
  have hn : (valuesOf (sheets.map Sheet.level) "lookup_options".toList).findSome? (mergeIn x) = none := by
    rcases hx with rfl | rfl | rfl <;> decide +kernel
  cases h with
  | asked h => cases h
  | said _ h => rw [hn] at h; cases h
  | default => exact absurd e (by decide)

/-- The set-up of the examples. -/
theorem referring : ReferringIn world scope rungs sheets (· ∈ keys) rank where
  setup := laddered
  files := levels_eq
  rendered := by
    intro v _
    show '%' ∉ (if v = .int 8080 then "8080".toList else [])
    split <;> decide
  options := by rw [options_eq]; exact Referring97.referring.options
  together := by
    rw [options_eq, Referring97.options]
    intro a b c h
    have := h.length_le
    simp at this
  legible := fun k hk => by
    have h := Referring97.legible hk
    exact ⟨h.part, h.ordinary, written hk, fun _ _ _ _ _ _ h => vars h, by rw [options_eq]; exact h.options⟩
  refs := by
    intro k hk t ht x fs hx
    have h := Referring97.referring.refs k hk t ht x fs hx
    refine ⟨h.1, h.2.1, fun vs st _ hb => first ?_ vs st hb⟩
    have h1 := h.1
    have h2 := h.2.1
    simp only [keys, List.mem_cons, List.not_mem_nil, or_false] at h1 hk
    rcases h1 with rfl | rfl | rfl | rfl
    · exact .inl rfl
    · exact .inr (.inl rfl)
    · exact .inr (.inr rfl)
    · rcases hk with rfl | rfl | rfl | rfl <;> exact absurd h2 (by decide)

theorem two {vs : List Value} (h : MeantL world scope sheets (templatesOf sheets "app::settings".toList) vs) : MergeableAny "deep".toList vs := by
  refine ⟨⟨by decide, fun h => absurd h (by decide), fun h => absurd h (by decide)⟩, fun _ a b c hs => ?_⟩
  rw [templates_eq, Referring97.settings] at h
  cases h with
  | cons _ h => cases h with
    | cons _ h => cases h; have := hs.length_le; simp at this

theorem field {x : Str} (hx : x = "none".toList ∨ x = "url".toList) : ∀ f ∈ [x], KeyPart f := fun f hf => by
  cases List.mem_singleton.1 hf
  rcases hx with rfl | rfl <;> exact ⟨by unfold Unquoted; decide, by decide, alpha_not_int (by decide)⟩

example : ∃ k v, newKey "app::settings.url".toList = .ok k ∧ Answered world scope sheets "app::settings".toList [] v ∧
    Gives world (newInvocation scope none) k [] (.ok (v.bind (fieldOf ["url".toList]))) :=
  C120_referring stateless (.start scope none) rfl referring (K := (· ∈ keys)) (root := "app::settings".toList) (by decide)
    (.inl ⟨rfl, rfl, Shell101.notEnv⟩) (st := "deep".toList) (.said rfl (by decide +kernel)) (fun _ h => two h) (fs := ["url".toList])
    (field (.inr rfl)) none

/-- The answer is the address. -/
example : ∃ k, newKey "app::settings.url".toList = .ok k ∧ Gives world (newInvocation scope none) k []
    (.ok (some (s "http://web.example.com:8080"))) := by
  refine ⟨⟨"app::settings.url".toList, [.name "app::settings".toList, .name "url".toList]⟩, by decide +kernel, ?_⟩
  exact (C81_answer world stateless (.start scope none) rfl scope none _ [] _).2 (answer_of (n := 1) (m := 8) (by decide +kernel))

example {v w : Option Value} (h : Answered world scope sheets "app::settings".toList [] v) (h' : Answered world scope sheets "app::settings".toList [] w) :
    (v = none ∧ w = none) ∨ ∃ x y, v = some x ∧ w = some y ∧ equals x y = true :=
  C120_one referring (fun a b _ _ e => by
    show (if a = .int 8080 then "8080".toList else []) = (if b = .int 8080 then "8080".toList else [])
    cases a <;> cases b <;> simp_all [equals]) (by decide) h h'

/-- The command line of the examples for C101. -/
def shell : Cli := { Shell101.shell with types := ⟨world, fun _ _ => true⟩ }

theorem askable {a : Str} (ha : a = "app::settings.none".toList ∨ a = "app::settings.url".toList) :
    AskableIn world scope sheets (· ∈ keys) [] a := by
  rcases ha with rfl | rfl
  · exact ⟨"app::settings".toList, ["none".toList], "deep".toList, rfl, by decide, field (.inl rfl), .said rfl (by decide +kernel), fun _ h => two h⟩
  · exact ⟨"app::settings".toList, ["url".toList], "deep".toList, rfl, by decide, field (.inr rfl), .said rfl (by decide +kernel), fun _ h => two h⟩

/-- `lookup --vars vars.yaml app::settings.none app::settings.url`. -/
example : ∃ vs, List.Forall₂ (Promised world scope sheets []) ["app::settings.none".toList, "app::settings.url".toList] vs ∧ ∀ out,
    (∃ n w, lookupAndRender shell (eval world n) Shell101.options ["app::settings.none".toList, "app::settings.url".toList]
      (newInvocation shell.scope none).v = some (out, w)) ↔
      Prints shell Shell101.options (.ok (shown false ["app::settings.none".toList, "app::settings.url".toList] vs none)) out :=
  C120_prints shell stateless (.start shell.scope none) Shell101.options (by unfold Explains; decide) ⟨rfl, rfl, by decide +kernel⟩ .no referring rfl rfl
    Shell101.notEnv (fun a ha => askable (by simpa using ha)) (by decide)

example : (lookupAndRender shell (eval world 12) Shell101.options ["app::settings.none".toList, "app::settings.url".toList]
    (newInvocation shell.scope none).v).map (·.1) = some (.ok (true, "http://web.example.com:8080\n".toList)) := by decide +kernel

/-- A request for the address. -/
example : ∃ x, Promised world scope sheets [] "app::settings.url".toList x ∧ ∀ r : Response,
    (∃ n w, serve shell (eval world n) Shell101.options ("/lookup/".toList ++ "app::settings.url".toList) [] [] (newInvocation shell.scope none).v =
      some (r, w)) ↔
      match x.or none with
      | none => r.code = 404 ∧ r.body = []
      | some y => ∃ out, Written shell.render (.value y) "json".toList out ∧ match out with
        | .ok t => r.code = 200 ∧ r.body = t
        | .panic _ => r.code = 500 ∧ r.body = [] :=
  C120_served shell stateless Shell101.options .start (by unfold Explains; decide) rfl ((keptPath_iff _).1 (by decide +kernel)) (by decide) [] []
    ⟨rfl, rfl, by decide +kernel⟩ .no referring rfl rfl Shell101.notEnv (askable (.inr rfl))

end Rungs120

end Hiera
