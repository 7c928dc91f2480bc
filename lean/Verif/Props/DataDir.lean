/- Where data files are looked for. -/
import Verif.Lemmas.Place
import Verif.Lemmas.Returns
import Verif.Lemmas.World

set_option autoImplicit false

namespace Hiera

open Value Spec World

/-- The place of an entry's data directory, seen from a working directory: the entry's data directory seen from the
directory of the configuration. -/
def Spec.dataPlace (cwd : Place) (e : Entry) : Place := place (place cwd e.root) e.dataDir

/-- A path of a resolved entry is the one that a template of the entry leads to from the data directory, or it is one of
the matches of such a pattern. `text o r` says that the template `o` gives `r`. -/
def Spec.PathLeadsTo (glob : Str → List Str) (text : Str → Str → Prop) (e : Entry) (o p : Str) : Prop :=
  ∃ r q, text o r ∧ (∀ cwd, place cwd q = walk (dataPlace cwd e) r) ∧ (p = q ∨ p ∈ glob q)

/-- A template may give a text. -/
def Spec.Text (E : Env) (rec : Rec) (o r : Str) : Prop := ∃ s t, interpCfg E rec o s = some (.ok r, t)

theorem dataPlace_eq (cwd : Place) (e : Entry) :
    place cwd (if isAbs e.dataDir then e.dataDir else join e.root e.dataDir) = dataPlace cwd e := by
  unfold dataPlace
  cases h : isAbs e.dataDir with
  | true => simp only [if_true]; rw [place_abs h, place_abs h]
  | false =>
    simp only [Bool.false_eq_true, if_false]
    by_cases hr : e.root = []
    · rw [hr, join_nil, place_rel h, place_rel h]; rfl
    · rw [place_join hr, place_rel h]

theorem dataRoot_ne (e : Entry) (hr : e.root ≠ []) :
    (if isAbs e.dataDir then e.dataDir else join e.root e.dataDir) ≠ [] := by
  split
  · rename_i h
    intro hd
    rw [hd] at h
    cases h
  · unfold join
    rw [if_pos hr]
    exact clean_ne _

theorem data_join (e : Entry) (hr : e.root ≠ []) (r : Str) (cwd : Place) :
    place cwd (join (if isAbs e.dataDir then e.dataDir else join e.root e.dataDir) r) = walk (dataPlace cwd e) r := by
  rw [place_join (dataRoot_ne e hr), dataPlace_eq]

theorem returns_interpCfg (E : Env) (rec : Rec) (o : Str) : Returns (interpCfg E rec o) (Text E rec o) :=
  fun s _ t h => ⟨s, t, h⟩

theorem returns_doWithScope {α : Type} {P : α → Prop} {m : M α} (sc : Scope) (h : Returns m P) : Returns (doWithScope sc m) P :=
  Returns.bind (Returns.trivial _) (fun _ _ => Returns.bind (Returns.trivial _) (fun _ _ => Returns.bind h (fun _ ha =>
    Returns.bind (Returns.trivial _) (fun _ _ => Returns.pure ha))))

section
variable (E : Env) (rec : Rec) (e : Entry) (hr : e.root ≠ [])
include hr

/-- The paths among resolved locations lead where their templates lead from the data directory. -/
def AllLead (E : Env) (rec : Rec) (e : Entry) (ls : List Loc) : Prop :=
  ∀ o p x, Loc.path o p x ∈ ls → PathLeadsTo E.glob (Text E rec) e o p

theorem returns_resolveMapped (key template : Str) (vs : List Value) :
    Returns (resolveMapped E rec key template (if isAbs e.dataDir then e.dataDir else join e.root e.dataDir) vs) (AllLead E rec e) := by
  induction vs with
  | nil => exact Returns.pure (fun _ _ _ h => nomatch h)
  | cons v vs ih =>
    refine Returns.bind (Returns.trivial _) (fun _ _ => Returns.bind
      (P := fun p => PathLeadsTo E.glob (Text E rec) e template p) (returns_doWithScope _ ?_) (fun p hp =>
        Returns.bind ih (fun ls hls => Returns.pure ?_)))
    · refine Returns.bind (returns_interpCfg E rec template) (fun r ht => Returns.pure ?_)
      exact ⟨r, _, ht, fun c => data_join e hr r c, .inl rfl⟩
    · intro o q x hm
      rcases List.mem_cons.mp hm with h | h
      · cases h; exact hp
      · exact hls o q x h

theorem returns_resolveLoc (l : Loc) :
    Returns (l.resolve E rec (if isAbs e.dataDir then e.dataDir else join e.root e.dataDir)) (AllLead E rec e) := by
  cases l with
  | path o q x =>
    refine Returns.bind (returns_interpCfg E rec o) (fun r ht => Returns.pure ?_)
    intro o' p' x' hm
    cases List.mem_singleton.mp hm
    exact ⟨r, _, ht, fun c => data_join e hr r c, .inl rfl⟩
  | glob o =>
    refine Returns.bind (returns_interpCfg E rec o) (fun r ht => Returns.pure ?_)
    intro o' p' x' hm
    obtain ⟨m, hg, heq⟩ := List.mem_map.mp hm
    cases heq
    exact ⟨r, _, ht, fun c => data_join e hr r c, .inr hg⟩
  | uri o r =>
    refine Returns.bind (returns_interpCfg E rec o) (fun r ht => Returns.pure ?_)
    intro o' p' x' hm
    cases List.mem_singleton.mp hm
  | mapped src key template =>
    refine Returns.bind (Returns.trivial _) (fun v _ => ?_)
    split
    · exact returns_resolveMapped E rec e hr key template _
    · exact returns_resolveMapped E rec e hr key template _
    · exact Returns.pure (fun _ _ _ h => nomatch h)

theorem returns_resolveLocs (ls : List Loc) :
    Returns (resolveLocs E rec (if isAbs e.dataDir then e.dataDir else join e.root e.dataDir) ls) (AllLead E rec e) := by
  induction ls with
  | nil => exact Returns.pure (fun _ _ _ h => nomatch h)
  | cons l ls ih =>
    refine Returns.bind (returns_resolveLoc E rec e hr l) (fun a ha => Returns.bind ih (fun b hb => Returns.pure ?_))
    intro o p x hm
    rcases List.mem_append.mp hm with h | h
    · exact ha o p x h
    · exact hb o p x h

end

/-- The directory of the configuration stays. -/
theorem returns_resolveFunction (E : Env) (rec : Rec) (d : Option Entry) (e : Entry) :
    Returns (resolveFunction E rec d e) (fun e' => e'.root = e.root) := by
  unfold resolveFunction
  split
  · split
    · exact Returns.pure rfl
    · split
      · exact Returns.pure rfl
      · exact Returns.panic _
  · exact Returns.bind (Returns.trivial _) (fun _ _ => Returns.pure rfl)

theorem returns_resolveDataDir (E : Env) (rec : Rec) (d : Option Entry) (e : Entry) :
    Returns (resolveDataDir E rec d e) (fun e' => e'.root = e.root) := by
  unfold resolveDataDir
  refine Returns.bind (returns_resolveFunction E rec d e) (fun e1 h1 => ?_)
  split
  · split
    · exact Returns.pure h1
    · exact Returns.pure h1
  · exact Returns.bind (Returns.trivial _) (fun _ _ => Returns.pure h1)

theorem returns_resolvePluginDir (E : Env) (rec : Rec) (d : Option Entry) (e : Entry) :
    Returns (resolvePluginDir E rec d e) (fun e' => e'.root = e.root) :=
  Returns.bind (Returns.trivial _) (fun _ _ => Returns.pure rfl)

theorem returns_resolveOptions (E : Env) (rec : Rec) (d : Option Entry) (e : Entry) :
    Returns (resolveOptions E rec d e) (fun e' => e'.root = e.root) := by
  unfold resolveOptions
  split
  · split
    · exact Returns.pure rfl
    · exact Returns.pure rfl
  · exact Returns.pure rfl
  · refine Returns.bind (Returns.trivial _) (fun _ _ => ?_)
    split
    · exact Returns.pure rfl
    · exact Returns.panic _

theorem returns_resolveLocations (E : Env) (rec : Rec) (e : Entry) (hr : e.root ≠ []) :
    Returns (resolveLocations E rec e) (fun e' => ∀ ls, e'.locations = some ls → AllLead E rec e' ls) := by
  unfold resolveLocations
  split
  · rename_i h
    refine Returns.pure (fun ls hls => ?_)
    rw [h] at hls
    cases hls
  · refine Returns.bind (returns_resolveLocs E rec e hr _) (fun ls hls => Returns.pure (fun ls' h => ?_))
    cases h
    exact hls

theorem returns_resolve (E : Env) (rec : Rec) (d : Option Entry) (e : Entry) (hr : e.root ≠ []) :
    Returns (e.resolve E rec d) (fun e' => ∀ ls, e'.locations = some ls → AllLead E rec e' ls) := by
  unfold Entry.resolve
  refine Returns.bind (returns_resolveFunction E rec d e) (fun e1 h1 => ?_)
  refine Returns.bind (returns_resolveDataDir E rec d e1) (fun e2 h2 => ?_)
  refine Returns.bind (returns_resolvePluginDir E rec d e2) (fun e3 h3 => ?_)
  refine Returns.bind (returns_resolveOptions E rec d e3) (fun e4 h4 => ?_)
  exact returns_resolveLocations E rec e4 (by rw [h4, h3, h2, h1]; exact hr)

/-- **C71**: every path of a resolved entry is where its template leads from the data directory of the entry, which is
seen from the directory of the configuration; an absolute text in a template does not lead away from there. -/
theorem C71_place (E : Env) (rec : Rec) (defaults : Option Entry) (e : Entry) (s t : St) (e' : Entry) (ls : List Loc)
    (hr : e.root ≠ []) (h : e.resolve E rec defaults s = some (.ok e', t)) (hl : e'.locations = some ls) (o p : Str) (x : Bool)
    (hm : Loc.path o p x ∈ ls) : PathLeadsTo E.glob (Text E rec) e' o p :=
  returns_resolve E rec defaults e hr s e' t h ls hl o p x hm

theorem go_below (c d : Place) {e : Str} (he : e ≠ ['.', '.']) (h : c <+: d) : c <+: go d e := by
  unfold go
  split
  · exact h
  · exact h.trans (List.prefix_append _ _)

/-- A text without `..` among its elements leads to a place at or below where it starts. -/
theorem walk_below (c : Place) (r : Str) (h : ['.', '.'] ∉ r.splitOn '/') : c <+: walk c r := by
  unfold walk
  revert h
  generalize r.splitOn '/' = es
  have : ∀ (es : List Str) (d : Place), ['.', '.'] ∉ es → c <+: d → c <+: es.foldl go d := by
    intro es
    induction es with
    | nil => exact fun _ _ h => h
    | cons e es ih =>
      intro d h hd
      exact ih _ (fun x => h (List.mem_cons_of_mem _ x)) (go_below c d (fun x => h (by simp [x])) hd)
  exact fun h => this es c h (List.prefix_refl c)

/-- **C71** without `..`: if no text that the template gives has an element `..`, then its path is at or below the data
directory. Paths found by patterns are excluded: what they match is up to the library that matches them. -/
theorem C71_below_partial (E : Env) (rec : Rec) (defaults : Option Entry) (e : Entry) (s t : St) (e' : Entry) (ls : List Loc)
    (hr : e.root ≠ []) (h : e.resolve E rec defaults s = some (.ok e', t)) (hl : e'.locations = some ls) (o p : Str) (x : Bool)
    (hm : Loc.path o p x ∈ ls) (hg : ∀ q, p ∉ E.glob q) (ht : ∀ r, Text E rec o r → ['.', '.'] ∉ r.splitOn '/') (cwd : Place) :
    dataPlace cwd e' <+: place cwd p := by
  obtain ⟨r, q, h1, h2, h3⟩ := C71_place E rec defaults e s t e' ls hr h hl o p x hm
  rcases h3 with rfl | h3
  · rw [h2]
    exact walk_below _ r (ht r h1)
  · exact absurd h3 (hg q)

/-- A hierarchy whose path has a variable, data in the data directory and a file elsewhere. -/
def dirWorld : Env := mk (cfg [entry "node" "nodes/%{node}.yaml"])
  [("/h/data/nodes/n1.yaml".toList, .map [(s "k", s "data")]), ("/etc/other.yaml".toList, .map [(s "k", s "elsewhere")])]

example : ∃ e' t, Entry.resolve dirWorld (eval dirWorld 3) none
      { root := "/h".toList, dataDir := "%{d}".toList, locations := some [.path "/nodes/%{node}.yaml".toList [] false] }
      (st [(s "node", s "a/../b/n1"), (s "d", s "../w//data")]) = some (.ok e', t) ∧
    e'.locations = some [.path "/nodes/%{node}.yaml".toList "/w/data/nodes/b/n1.yaml".toList false] ∧
    dataPlace [] e' = ["w".toList, "data".toList] := by
  refine ⟨_, _, rfl, ?_, ?_⟩ <;> decide +kernel

/-- **C71** does not hold as it stands: the value of a variable leads out of the data directory, and the answer comes
from the file there. The variable may be one that a client of the REST server sends. -/
theorem C71_escapes :
    ask dirWorld 5 "k" [(s "node", s "n1")] = some (.ok (some (s "data"))) ∧
    ask dirWorld 5 "k" [(s "node", s "../../../etc/other")] = some (.ok (some (s "elsewhere"))) ∧
    ¬ ["h".toList, "data".toList] <+: place [] "/etc/other.yaml".toList := by
  refine ⟨by decide +kernel, by decide +kernel, by decide +kernel⟩

end Hiera
