/- C100: a level with several locations, and a level for each of them. -/
import Verif.Lemmas.Grouped2
import Verif.Props.Ordinary

set_option autoImplicit false

namespace Hiera
open Value Spec World

/-- C100: a level with several locations is the same as several levels with one location each, in the same order and with the same
settings: all lookups give the same, in all sessions. Missing: hierarchies in which it is the only level (`C100_false_alone`), and
data in which a value keeps apart two others that would be merged without it (`C100_false`). -/
theorem C100_split_partial {E : Env} (he : StatelessEnv E) {sc : Scope} {p : Str} {c c' : Cfg}
    (hc : newCfg E.cfg E.configPath (E.readYaml E.configPath) = .ok c) (hc' : newCfg E.cfg p (E.readYaml p) = .ok c')
    (hd : c'.defaults = c.defaults) (hdh : c'.defaultHierarchy = c.defaultHierarchy) {pre post : List Entry} {e : Entry} {ls : List (Str × Loc)}
    (hls : ls ≠ []) (hh : c.hierarchy = pre ++ renamed e e.name (ls.map (·.2)) :: post)
    (hh' : c'.hierarchy = pre ++ ls.map (fun l => renamed e l.1 [l.2]) ++ post) (h1 : pre ++ post ≠ []) (hn : NeverClashes E sc c)
    {s s' : St} (hs : Session E s) (hs' : Session (withFiles E p E.readYaml E.readJson) s')
    (ex ex' : Option ExplOpts) (k : Key) (o : Entries) (r : Res (Option Value)) :
    Gives (withFiles E p E.readYaml E.readJson) (nextInvocation s' sc ex') k o r ↔ Gives E (nextInvocation s sc ex) k o r := by
  rw [C81_session _ (statelessEnv_files he ..) ⟨c', hc'⟩ hs', C81_session _ he ⟨c, hc⟩ hs]
  exact answers_split hc hc' hd hdh hls hh hh' h1 hn k o r

/-- C100 for data without expressions: it is enough that all values for a key are of the same shape. -/
theorem C100_shapes_partial {E : Env} (he : StatelessEnv E) {sc : Scope} {p : Str} {c c' : Cfg}
    (hc : newCfg E.cfg E.configPath (E.readYaml E.configPath) = .ok c) (hc' : newCfg E.cfg p (E.readYaml p) = .ok c')
    (hd : c'.defaults = c.defaults) (hdh : c'.defaultHierarchy = c.defaultHierarchy) {pre post : List Entry} {e : Entry} {ls : List (Str × Loc)}
    (hls : ls ≠ []) (hh : c.hierarchy = pre ++ renamed e e.name (ls.map (·.2)) :: post)
    (hh' : c'.hierarchy = pre ++ ls.map (fun l => renamed e l.1 [l.2]) ++ post) (h1 : pre ++ post ≠ [])
    (hw : ∀ n es, refLevels E (ref E none n) ⟨sc, .call⟩ c c.hierarchy = some (.ok es) → WellShaped E es)
    {s s' : St} (hs : Session E s) (hs' : Session (withFiles E p E.readYaml E.readJson) s')
    (ex ex' : Option ExplOpts) (k : Key) (o : Entries) (r : Res (Option Value)) :
    Gives (withFiles E p E.readYaml E.readJson) (nextInvocation s' sc ex') k o r ↔ Gives E (nextInvocation s sc ex) k o r :=
  C100_split_partial he hc hc' hd hdh hls hh hh' h1 (neverClashes_of_shape hw) hs hs' ex ex' k o r

/-! ### Concrete cases -/

namespace Grouped100

/-- `/h/hiera.yaml` with the given levels first, then one with two paths, and `/h/split.yaml` with two levels instead. -/
def world (first : List Value) (a b c : List (Value × Value)) : Env :=
  mk (cfg (first ++ [.map [(s "name", s "both"), (s "paths", .arr [s "b.yaml", s "c.yaml"])]]))
    [("/h/split.yaml".toList, cfg (first ++ [entry "b" "b.yaml", entry "c" "c.yaml"])),
      ("/h/data/a.yaml".toList, .map a), ("/h/data/b.yaml".toList, .map b), ("/h/data/c.yaml".toList, .map c)]

def noVars : Scope := .map []

theorem stateless (first : List Value) (a b c : List (Value × Value)) : StatelessEnv (world first a b c) where
  top := .inl rfl
  mux := fun _ _ h => nomatch h
  fns := fun _ _ h => nomatch h
  plugins := fun _ _ _ h => nomatch h

/-- The configurations, compared. -/
def compare (E : Env) (p : Str) : Bool :=
  match newCfg E.cfg E.configPath (E.readYaml E.configPath), newCfg E.cfg p (E.readYaml p) with
  | .ok c, .ok c' =>
    decide (c'.defaults = c.defaults) && decide (c'.defaultHierarchy = c.defaultHierarchy) &&
    match c.hierarchy.getLast? with
    | none => false
    | some e => match e.locations with
      | some ls => decide (ls.length = 2) && decide (c.hierarchy = c.hierarchy.dropLast ++ [renamed e e.name ((["b".toList, "c".toList].zip ls).map (·.2))]) &&
          decide (c'.hierarchy = c.hierarchy.dropLast ++ (["b".toList, "c".toList].zip ls).map (fun l => renamed e l.1 [l.2]))
      | none => false
  | _, _ => false

theorem compare_spec {E : Env} {p : Str} (h : compare E p = true) : ∃ (c c' : Cfg) (pre : List Entry) (e : Entry) (ls : List (Str × Loc)),
    newCfg E.cfg E.configPath (E.readYaml E.configPath) = .ok c ∧ newCfg E.cfg p (E.readYaml p) = .ok c' ∧ c'.defaults = c.defaults ∧
    c'.defaultHierarchy = c.defaultHierarchy ∧ ls.length = 2 ∧ c.hierarchy = pre ++ [renamed e e.name (ls.map (·.2))] ∧
    c'.hierarchy = pre ++ ls.map (fun l => renamed e l.1 [l.2]) := by
  unfold compare at h
  split at h
  · rename_i c c' hc hc'
    simp only [Bool.and_eq_true, decide_eq_true_eq] at h
    obtain ⟨⟨h1, h2⟩, h3⟩ := h
    split at h3
    · cases h3
    · rename_i e he
      split at h3
      · rename_i ls hl
        simp only [Bool.and_eq_true, decide_eq_true_eq] at h3
        obtain ⟨⟨h4, h5⟩, h6⟩ := h3
        exact ⟨c, c', _, e, _, hc, hc', h1, h2, by simp [h4], h5, h6⟩
      · cases h3
  · cases h

/-- Where both have something, the values are of the same kind. -/
def shapes : Nat → Value → Value → Bool
  | n + 1, .map es, .map fs => es.all (fun e => fs.all (fun f => !equals e.1 f.1 || shapes n e.2 f.2))
  | 0, .map _, .map _ => false
  | _, .map _, _ => false
  | _, .arr _, .arr _ => true
  | _, .arr _, _ => false
  | _, _, _ => true

theorem shapes_spec : ∀ (path : List Value) (n : Nat) (v w x y z : Value), WF v → WF w → shapes n v w = true → (∀ k ∈ path, WF k) →
    valueAt path v = some x → valueAt path w = some y → SameContainer x z → SameContainer y z
  | [], n, v, w, x, y, z, _, _, h, _, hx, hy, hs => by
    cases hx
    cases hy
    have hk : (∀ es, v ≠ .map es) ∨ ∃ fs, w = .map fs := by
      cases v
      case map => cases n <;> cases w <;> first | exact .inr ⟨_, rfl⟩ | cases h
      all_goals exact .inl (fun _ h => nomatch h)
    have hl : (∀ es, v ≠ .arr es) ∨ ∃ fs, w = .arr fs := by
      cases v
      case arr => cases n <;> cases w <;> first | exact .inr ⟨_, rfl⟩ | cases h
      all_goals exact .inl (fun _ h => nomatch h)
    cases v <;> first | exact hs.elim | skip
    · obtain h | ⟨fs, rfl⟩ := hl
      · exact absurd rfl (h _)
      · cases z <;> trivial
    · obtain h | ⟨fs, rfl⟩ := hk
      · exact absurd rfl (h _)
      · cases z <;> trivial
  | k :: path, n, v, w, x, y, z, hv, hw, h, hp, hx, hy, hs => by
    obtain ⟨es, a, rfl, h1, h2⟩ := valueAt_cons_some hx
    obtain ⟨fs, b, rfl, h3, h4⟩ := valueAt_cons_some hy
    cases n with
    | zero => cases h
    | succ n =>
      rw [shapes] at h
      obtain ⟨e, he, hke, rfl⟩ := Entries.get_mem h1
      obtain ⟨f, hf, hkf, rfl⟩ := Entries.get_mem h3
      have h5 := List.all_eq_true.1 (List.all_eq_true.1 h e he) f hf
      have we := Entries.WF_of_mem hv he
      have wf := Entries.WF_of_mem hw hf
      have wk := hp k (List.mem_cons_self ..)
      rw [equals_trans we.1 wk wf.1 (equals_symm wk we.1 hke) hkf] at h5
      exact shapes_spec path n e.2 f.2 x y z we.2 wf.2 (by simpa using h5) (fun k h => hp k (List.mem_cons_of_mem _ h)) h2 h4 hs

def good : Env := world [entry "a" "a.yaml"] [(s "h", .map [(s "x", .int 1), (s "l", .arr [.int 1])])]
  [(s "h", .map [(s "y", .int 2), (s "l", .arr [.int 2])]), (s "n", .int 3)] [(s "h", .map [(s "x", .int 9), (s "l", .arr [.int 1, .int 3])])]

def bad : Env := world [entry "a" "a.yaml"] [(s "h", .map [(s "k", .map [(s "x", .int 1)])])]
  [(s "h", .map [(s "k", .int 5)])] [(s "h", .map [(s "k", .map [(s "y", .int 2)])])]

def alone : Env := world [] [] [(s "l", .arr [.int 1, .int 1])] []

def h : Key := ⟨"h".toList, [.name "h".toList]⟩

def split (E : Env) : Env := withFiles E "/h/split.yaml".toList E.readYaml E.readJson

/-- What the sources of a resolved hierarchy read, if all of them are functions that give all data. -/
def hashes (E : Env) : List Entry → Option (List (Res Entries))
  | [] => some []
  | e :: es => match e.function with
    | some (.dataHash, n) => (hashes E es).map (fun hs => (match e.locations with
        | none => [refHash E e n (refOpts e none)]
        | some ls => ls.map (fun l => refHash E e n (refOpts e (some l)))) ++ hs)
    | _ => none

theorem hashes_spec {E : Env} : ∀ {es : List Entry} {hs : List (Res Entries)}, hashes E es = some hs →
    (∀ e ∈ es, ∃ n, e.function = some (.dataHash, n)) ∧ ∀ q v, InData E es q v → ∃ h, .ok h ∈ hs ∧ Entries.getS h q = some v
  | [], hs, h => ⟨fun _ h => (List.not_mem_nil h).elim, fun q v ⟨e, he, _⟩ => (List.not_mem_nil he).elim⟩
  | e :: es, hs, h => by
    rw [hashes] at h
    split at h
    · rename_i n hf
      obtain ⟨xs, hxs, rfl⟩ := Option.map_eq_some_iff.1 h
      obtain ⟨i1, i2⟩ := hashes_spec hxs
      refine ⟨fun x hx => ?_, fun q v ⟨x, hx, m, l, g, hxf, hl, hg, hv⟩ => ?_⟩
      · rcases List.mem_cons.1 hx with rfl | hx
        · exact ⟨n, hf⟩
        · exact i1 x hx
      · rcases List.mem_cons.1 hx with rfl | hx
        · rw [hf] at hxf
          cases hxf
          refine ⟨g, List.mem_append_left _ ?_, hv⟩
          cases l with
          | none => rw [hl]; exact List.mem_singleton.2 hg.symm
          | some l =>
            obtain ⟨ls, hls, hm⟩ := hl
            rw [hls]
            exact List.mem_map.2 ⟨l, hm, hg⟩
        · obtain ⟨g, h1, h2⟩ := i2 q v ⟨x, hx, m, l, g, hxf, hl, hg, hv⟩
          exact ⟨g, List.mem_append_right _ h1, h2⟩
    · cases h

def data : List Entries := [
  [(s "h", .map [(s "x", .int 1), (s "l", .arr [.int 1])])],
  [(s "h", .map [(s "y", .int 2), (s "l", .arr [.int 2])]), (s "n", .int 3)],
  [(s "h", .map [(s "x", .int 9), (s "l", .arr [.int 1, .int 3])])]]

def read : Bool :=
  match newCfg good.cfg good.configPath (good.readYaml good.configPath) with
  | .ok c => match refLevels good (ref good none 0) ⟨noVars, .call⟩ c c.hierarchy with
    | some (.ok es) => decide (hashes good es = some (data.map .ok))
    | _ => false
  | _ => false

theorem getS_same {h g : Entries} {q : Str} {v w : Value} (h1 : Entries.getS h q = some v) (h2 : Entries.getS g q = some w) :
    ∃ e ∈ h, ∃ f ∈ g, e.1 = f.1 ∧ e.2 = v ∧ f.2 = w := by
  obtain ⟨e, he, ke, rfl⟩ := Entries.get_mem h1
  obtain ⟨f, hf, kf, rfl⟩ := Entries.get_mem h2
  exact ⟨e, he, f, hf, ((equals_str_iff ..).1 ke).trans ((equals_str_iff ..).1 kf).symm, rfl, rfl⟩

theorem data_wf : ∀ h ∈ data, ∀ e ∈ h, WF e.2 ∧ Unmarked e.2 := by
  intro h hh e he
  have hm : marked e.2 = false := by
    have : ∀ h ∈ data, ∀ e ∈ h, marked e.2 = false := by decide +kernel
    exact this h hh e he
  refine ⟨?_, unmarked_of_marked hm⟩
  simp only [data, List.mem_cons, List.not_mem_nil, or_false] at hh
  rcases hh with rfl | rfl | rfl <;> simp only [List.mem_cons, List.not_mem_nil, or_false] at he <;> (try rcases he with rfl | rfl) <;>
    simp [WF, WFEntries, WFList, s, equals]

theorem data_same : ∀ h ∈ data, ∀ g ∈ data, ∀ e ∈ h, ∀ f ∈ g, e.1 = f.1 → shapes 3 e.2 f.2 = true := by decide +kernel

theorem shaped {es : List Entry} (h : hashes good es = some (data.map .ok)) : WellShaped good es := by
  obtain ⟨h1, h2⟩ := hashes_spec h
  have h3 : ∀ q v, InData good es q v → ∃ g ∈ data, Entries.getS g q = some v := fun q v hv => by
    obtain ⟨g, hg, hq⟩ := h2 q v hv
    obtain ⟨d, hd, hx⟩ := List.mem_map.1 hg
    cases hx
    exact ⟨g, hd, hq⟩
  refine ⟨h1, fun q v hv => ?_, fun q v w hv hw path x y hp hx hy z => ?_⟩
  · obtain ⟨g, hg, hq⟩ := h3 q v hv
    obtain ⟨e, he, _, rfl⟩ := Entries.get_mem hq
    exact data_wf g hg e he
  · obtain ⟨g, hg, hq⟩ := h3 q v hv
    obtain ⟨f, hf, hr⟩ := h3 q w hw
    obtain ⟨a, ha, b, hb, hab, rfl, rfl⟩ := getS_same hq hr
    exact shapes_spec path 3 _ _ x y z (data_wf g hg a ha).1 (data_wf f hf b hb).1 (data_same g hg f hf a ha b hb hab) hp hx hy

theorem good_shaped {c : Cfg} (hc : newCfg good.cfg good.configPath (good.readYaml good.configPath) = .ok c) :
    ∀ n es, refLevels good (ref good none n) ⟨noVars, .call⟩ c c.hierarchy = some (.ok es) → WellShaped good es := by
  intro n es hes
  have h : read = true := by decide +kernel
  unfold read at h
  rw [hc] at h
  dsimp only at h
  split at h
  · rename_i es' he
    have h' := refLevels_le (ref_mono good none (Nat.zero_le n)) ⟨noVars, .call⟩ c c.hierarchy _ he
    rw [hes] at h'
    cases h'
    exact shaped (of_decide_eq_true h)
  · cases h

end Grouped100

open Grouped100 in
/-- C100's hypotheses are met: three files with maps and arrays, the last two of them paths of one level in one configuration and levels
of their own in the other. Deep merge gives the same in both. -/
example (k : Key) (o : Entries) (r : Res (Option Value)) :
    Gives (split good) (newInvocation noVars none) k o r ↔ Gives good (newInvocation noVars none) k o r := by
  have h : compare good "/h/split.yaml".toList = true := by decide +kernel
  have hlen : (match newCfg good.cfg good.configPath (good.readYaml good.configPath) with | .ok c => c.hierarchy.length | _ => 0) = 2 := by decide +kernel
  obtain ⟨c, c', pre, e, ls, hc, hc', h1, h2, hl, h3, h4⟩ := compare_spec h
  have hp : pre ++ [] ≠ [] := by
    rw [List.append_nil]
    rintro rfl
    rw [hc] at hlen
    dsimp only at hlen
    rw [h3] at hlen
    cases hlen
  exact C100_shapes_partial (stateless _ _ _ _) hc hc' h1 h2 (by rintro rfl; cases hl) h3 (by rw [h4, List.append_nil]) hp (good_shaped hc) (.start noVars none) (.start noVars none) none none k o r

open Grouped100 in
example : ((eval good 8).lookup h [(s "merge", s "deep")] (newInvocation noVars none)).map (·.1) =
    some (.ok (some (.map [(s "x", .int 1), (s "l", .arr [.int 1, .int 2, .int 3]), (s "y", .int 2)]))) := by decide +kernel

open Grouped100 in
/-- C100 is false for data in which a value keeps apart two others: with deep merge, `a` over `b` over `c`, where `b` has a number for what
is a map in the other two. With a level for each file, the maps are merged; with the last two files as paths of one level, they are not. -/
theorem C100_false : ∃ (E : Env) (sc : Scope) (p : Str) (c c' : Cfg) (pre : List Entry) (e : Entry) (ls : List (Str × Loc)) (k : Key) (o : Entries)
    (v w : Value), StatelessEnv E ∧ newCfg E.cfg E.configPath (E.readYaml E.configPath) = .ok c ∧ newCfg E.cfg p (E.readYaml p) = .ok c' ∧
    c'.defaults = c.defaults ∧ c'.defaultHierarchy = c.defaultHierarchy ∧ pre ≠ [] ∧ c.hierarchy = pre ++ [renamed e e.name (ls.map (·.2))] ∧
    c'.hierarchy = pre ++ ls.map (fun l => renamed e l.1 [l.2]) ∧ Gives E (newInvocation sc none) k o (.ok (some v)) ∧
    Gives (withFiles E p E.readYaml E.readJson) (newInvocation sc none) k o (.ok (some w)) ∧ v ≠ w := by
  have h : compare bad "/h/split.yaml".toList = true := by decide +kernel
  have hlen : (match newCfg bad.cfg bad.configPath (bad.readYaml bad.configPath) with | .ok c => c.hierarchy.length | _ => 0) = 2 := by decide +kernel
  have ha : ((eval bad 8).lookup Grouped100.h [(s "merge", s "deep")] (newInvocation noVars none)).map (·.1) =
    some (.ok (some (.map [(s "k", .map [(s "x", .int 1)])]))) := by decide +kernel
  have hb : ((eval (split bad) 8).lookup Grouped100.h [(s "merge", s "deep")] (newInvocation noVars none)).map (·.1) =
    some (.ok (some (.map [(s "k", .map [(s "x", .int 1), (s "y", .int 2)])]))) := by decide +kernel
  obtain ⟨c, c', pre, e, ls, hc, hc', h1, h2, hl, h3, h4⟩ := compare_spec h
  obtain ⟨⟨r, t⟩, ha, hr⟩ := Option.map_eq_some_iff.1 ha
  obtain ⟨⟨r', t'⟩, hb, hr'⟩ := Option.map_eq_some_iff.1 hb
  dsimp only at hr hr'
  subst hr hr'
  refine ⟨_, _, _, c, c', pre, e, ls, _, _, _, _, stateless _ _ _ _, hc, hc', h1, h2, ?_, h3, h4, ⟨8, t, ha⟩, ⟨8, t', hb⟩, by decide⟩
  rintro rfl
  rw [hc] at hlen
  dsimp only at hlen
  rw [h3] at hlen
  cases hlen

open Grouped100 in
/-- C100 is false for a level that is the only one: with `unique`, what a level with two paths finds is made unique also when only one
of the files has it, and what the only one of two levels finds is left as it is. -/
theorem C100_false_alone : ∃ (E : Env) (sc : Scope) (p : Str) (c c' : Cfg) (e : Entry) (ls : List (Str × Loc)) (k : Key) (o : Entries)
    (v w : Value), StatelessEnv E ∧ newCfg E.cfg E.configPath (E.readYaml E.configPath) = .ok c ∧ newCfg E.cfg p (E.readYaml p) = .ok c' ∧
    c'.defaults = c.defaults ∧ c'.defaultHierarchy = c.defaultHierarchy ∧ c.hierarchy = [renamed e e.name (ls.map (·.2))] ∧
    c'.hierarchy = ls.map (fun l => renamed e l.1 [l.2]) ∧ ls.length = 2 ∧ Gives E (newInvocation sc none) k o (.ok (some v)) ∧
    Gives (withFiles E p E.readYaml E.readJson) (newInvocation sc none) k o (.ok (some w)) ∧ v ≠ w := by
  have h : compare alone "/h/split.yaml".toList = true := by decide +kernel
  have hlen : (match newCfg alone.cfg alone.configPath (alone.readYaml alone.configPath) with | .ok c => c.hierarchy.length | _ => 0) = 1 := by
    decide +kernel
  have ha : ((eval alone 8).lookup ⟨"l".toList, [.name "l".toList]⟩ [(s "merge", s "unique")] (newInvocation noVars none)).map (·.1) =
    some (.ok (some (.arr [.int 1]))) := by decide +kernel
  have hb : ((eval (split alone) 8).lookup ⟨"l".toList, [.name "l".toList]⟩ [(s "merge", s "unique")] (newInvocation noVars none)).map (·.1) =
    some (.ok (some (.arr [.int 1, .int 1]))) := by decide +kernel
  obtain ⟨c, c', pre, e, ls, hc, hc', h1, h2, hl, h3, h4⟩ := compare_spec h
  obtain ⟨⟨r, t⟩, ha, hr⟩ := Option.map_eq_some_iff.1 ha
  obtain ⟨⟨r', t'⟩, hb, hr'⟩ := Option.map_eq_some_iff.1 hb
  dsimp only at hr hr'
  subst hr hr'
  have hp : pre = [] := by
    rw [hc] at hlen
    dsimp only at hlen
    rw [h3] at hlen
    simpa using hlen
  subst hp
  exact ⟨_, _, _, c, c', e, ls, _, _, _, _, stateless _ _ _ _, hc, hc', h1, h2, h3, h4, hl, ⟨8, t, ha⟩, ⟨8, t', hb⟩, by decide⟩

end Hiera
