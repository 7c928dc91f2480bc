/- C68: the text of an explanation. C64: the explanation of lookups as data. -/
import Verif.Model.ExplainText
import Verif.Lemmas.Holds
import Verif.Lemmas.World
import Verif.Props.ExplainData
import Verif.Props.Key

set_option autoImplicit false

namespace Hiera

open Value World
open scoped List

/-- The lines of a text. -/
def Spec.lines : List Chunk → List (List Chunk)
  | [] => [[]]
  | .line _ :: ps => [] :: Spec.lines ps
  | p :: ps => match Spec.lines ps with
    | l :: ls => (p :: l) :: ls
    | [] => [[p]]

/-- What a location has to be told about: which one it is, as found in the file system or on the net, and as written in the
configuration. -/
def Spec.heading : Loc → List (List Chunk)
  | .path o r _ => [[.text "Path \"".toList, .text r, .text ['"']],
      [.text "Original ".toList, .text "path".toList, .text ": \"".toList, .text o, .text ['"']]]
  | .uri o r => [[.text "URI \"".toList, .text r, .text ['"']],
      [.text "Original ".toList, .text "uri".toList, .text ": \"".toList, .text o, .text ['"']]]
  | _ => []

/-- What has to be told about the outcome: whether the location exists, and what was found for which key. -/
def Spec.ending (l : Loc) (event : Event) (key : Str) (value : Option Value) : List (List Chunk) :=
  match event, l, value with
  | .locationNotFound, .path _ _ _, _ => [[.text "path".toList, .text " not found".toList]]
  | .notFound, _, _ => [[.text "No such key: \"".toList, .text key, .text ['"']]]
  | .found, _, some v => [[.text "Found key: \"".toList, .text key, .text "\" value: ".toList, .val v]]
  | _, _, _ => []

mutual
/-- The lines about the locations below a node. -/
def Spec.story : Node → List (List Chunk)
  | .mk (.location l) key event value _ bs => Spec.heading l ++ Spec.stories bs ++ Spec.ending l event key value
  | .mk _ _ _ _ _ bs => Spec.stories bs
/-- The lines about the locations below nodes. -/
def Spec.stories : List Node → List (List Chunk)
  | [] => []
  | b :: bs => Spec.story b ++ Spec.stories bs
end

open Spec

/-! ### The explanations of sessions are good -/

theorem good_sound {V : Value → Prop} {n : Node} (h : GoodNode V n) : SoundNode n := by
  induction h with
  | @mk kind key event value texts branches h1 _ _ _ _ ih =>
    refine .mk ?_ ih
    cases kind <;> first | exact h1 | trivial

/-- C64: the explanation that an invocation of a session has made, turned into data at every depth and back, is the same explanation. -/
theorem C64_session {E : Env} {s : St} (h : Served E (fun _ => True) s) :
    ∃ root, s.tree = .at root [] ∧ root.toData.decode = .ok (.node root) := by
  obtain ⟨_, root, ht, hg, _⟩ := served_good (vals_true E) h
  exact ⟨root, ht, C64_tree root (good_sound hg)⟩

/-! ### Text -/

theorem lines_ne (w : List Chunk) : lines w ≠ [] := by
  cases w with
  | nil => exact nofun
  | cons p w =>
    cases p with
    | line k => exact nofun
    | text s => unfold lines; split <;> exact nofun
    | val v => unfold lines; split <;> exact nofun

theorem lines_line (w x : List Chunk) (k : Nat) : lines (w ++ .line k :: x) = lines w ++ lines x := by
  have cons : ∀ (p : Chunk) (w : List Chunk), (∀ k, p ≠ .line k) → lines (w ++ .line k :: x) = lines w ++ lines x →
      lines (p :: w ++ .line k :: x) = lines (p :: w) ++ lines x := by
    intro p w hp ih
    cases p with
    | line k => exact absurd rfl (hp k)
    | text s =>
      simp only [List.cons_append, lines]
      rw [ih]
      cases hl : lines w with
      | nil => exact absurd hl (lines_ne w)
      | cons l ls => rfl
    | val v =>
      simp only [List.cons_append, lines]
      rw [ih]
      cases hl : lines w with
      | nil => exact absurd hl (lines_ne w)
      | cons l ls => rfl
  induction w with
  | nil => rfl
  | cons p w ih =>
    cases p with
    | line k => simp only [List.cons_append, lines]; rw [ih]
    | text s => exact cons _ w (fun k => nofun) ih
    | val v => exact cons _ w (fun k => nofun) ih

/-- The lines of a text but the first. -/
def later (w : List Chunk) : List (List Chunk) := (lines w).tail

theorem later_line (w x : List Chunk) (k : Nat) : later (w ++ .line k :: x) = later w ++ lines x := by
  unfold later
  rw [lines_line]
  cases hl : lines w with
  | nil => exact absurd hl (lines_ne w)
  | cons l ls => rfl

/-- Pieces of a single line. -/
def Flat (x : List Chunk) : Prop := ∀ p ∈ x, ∀ k, p ≠ .line k

theorem flatTexts (x : List Str) : Flat (x.map .text) := by
  intro p hp k hk
  obtain ⟨_, _, rfl⟩ := List.mem_map.mp hp
  exact nomatch hk

theorem lines_flat {x : List Chunk} (h : Flat x) : lines x = [x] := by
  induction x with
  | nil => rfl
  | cons p x ih =>
    have := ih (fun q hq => h q (List.mem_cons_of_mem _ hq))
    cases p with
    | line k => exact absurd rfl (h _ List.mem_cons_self k)
    | text s => simp only [lines, this]
    | val v => simp only [lines, this]

/-- A line is added. -/
theorem later_add {S : List (List Chunk)} {w : List Chunk} (h : S <+ later w) {x : List Chunk} (hx : Flat x) (k : Nat) :
    S ++ [x] <+ later (w ++ .line k :: x) := by
  rw [later_line, lines_flat hx]
  exact h.append (List.Sublist.refl _)

theorem later_skip {S : List (List Chunk)} {w : List Chunk} (h : S <+ later w) (x : List Chunk) (k : Nat) :
    S <+ later (w ++ .line k :: x) := by
  rw [later_line]
  exact h.trans (List.sublist_append_left _ _)

theorem later_texts {S : List (List Chunk)} (ts : List Str) (level : Nat) {w : List Chunk} (h : S <+ later w) :
    S <+ later (dumpTexts level ts w) := by
  induction ts generalizing w with
  | nil => exact h
  | cons t ts ih => exact ih (later_skip h _ _)

/-- The outcome of a location is told. -/
theorem outcome_told (l : Loc) (level : Nat) {event : Event} {key : Str} {value : Option Value} (texts : List Str)
    (hv : event.valued = true → value ≠ none) {S : List (List Chunk)} {w : List Chunk} (h : S <+ later w) :
    ∃ w', dumpOutcome level event key value texts (w ++ missingText level l event) = .ok w' ∧ S ++ ending l event key value <+ later w' := by
  unfold dumpOutcome
  have flat3 : ∀ a b c : Str, Flat [.text a, .text b, .text c] := by
    intro a b c p hp k
    simp only [List.mem_cons, List.not_mem_nil, or_false] at hp
    rcases hp with rfl | rfl | rfl <;> exact nofun
  cases event with
  | none => exact ⟨_, rfl, by simpa only [ending, missingText, List.append_nil] using later_texts texts level h⟩
  | moduleNotFound => exact ⟨_, rfl, by simpa only [ending, missingText, List.append_nil] using later_texts texts level h⟩
  | result => exact ⟨_, rfl, by simpa only [ending, missingText, List.append_nil] using later_texts texts level h⟩
  | notFound =>
    refine ⟨_, rfl, ?_⟩
    simp only [ending, missingText, List.append_nil]
    exact later_texts _ _ (later_add h (flat3 _ _ _) _)
  | locationNotFound =>
    refine ⟨_, rfl, ?_⟩
    cases l with
    | path o r e =>
      simp only [ending, missingText]
      refine later_texts _ _ (later_add h ?_ _)
      intro p hp k
      simp only [List.mem_cons, List.not_mem_nil, or_false] at hp
      rcases hp with rfl | rfl <;> exact nofun
    | _ => simp only [ending, missingText, List.append_nil]; exact later_texts _ _ (later_skip h _ _)
  | found =>
    cases value with
    | none => exact absurd rfl (hv rfl)
    | some v =>
      refine ⟨_, rfl, ?_⟩
      simp only [ending, missingText, whereFound, List.append_nil, List.append_assoc, List.cons_append, List.nil_append]
      refine later_texts _ _ (later_add h ?_ _)
      intro p hp k
      simp only [List.mem_cons, List.not_mem_nil, or_false] at hp
      rcases hp with rfl | rfl | rfl | rfl <;> exact nofun
  | foundInDefaults =>
    cases value with
    | none => exact absurd rfl (hv rfl)
    | some v =>
      refine ⟨_, rfl, ?_⟩
      simp only [ending, missingText, whereFound, List.append_nil, List.append_assoc, List.cons_append, List.nil_append]
      exact later_texts _ _ (later_skip h _ _)
  | foundInOverrides =>
    cases value with
    | none => exact absurd rfl (hv rfl)
    | some v =>
      refine ⟨_, rfl, ?_⟩
      simp only [ending, missingText, whereFound, List.append_nil, List.append_assoc, List.cons_append, List.nil_append]
      exact later_texts _ _ (later_skip h _ _)

/-- The outcome of another node can be told. -/
theorem outcome_ok (level : Nat) {event : Event} (key : Str) {value : Option Value} (texts : List Str)
    (hv : event.valued = true → value ≠ none) {S : List (List Chunk)} {w : List Chunk} (h : S <+ later w) :
    ∃ w', dumpOutcome level event key value texts w = .ok w' ∧ S <+ later w' := by
  have skip : ∀ x : List Chunk, S <+ later (w ++ .line level :: x) := fun x => later_skip h x level
  unfold dumpOutcome
  cases event with
  | notFound => exact ⟨_, rfl, later_texts _ _ (skip _)⟩
  | found | foundInDefaults | foundInOverrides =>
    cases value with
    | none => exact absurd rfl (hv rfl)
    | some v =>
      refine ⟨_, rfl, later_texts _ _ ?_⟩
      simp only [List.append_assoc, List.cons_append]
      exact skip _
  | _ => exact ⟨_, rfl, later_texts _ _ h⟩

theorem parsed_parts {k : Key} (h : newKey k.source = .ok k) : k.parts ≠ [] := by
  rcases C01_key k.source with ⟨e, he, _⟩ | ⟨k', hk, _, ⟨r, _, hr⟩, _⟩
  · rw [h] at he; cases he
  · rw [h] at hk
    cases hk
    intro hn
    rw [hn] at hr
    cases hr

theorem any_line {w : List Chunk} (h : w.any Chunk.nonempty = false) : Flat w := by
  intro p hp k hk
  subst hk
  rw [List.any_eq_false] at h
  exact h _ hp rfl

theorem all_told {bs : List Node} (ih : ∀ b ∈ bs, ∀ (level : Nat) (S : List (List Chunk)) (w : List Chunk),
      S <+ later w → ∃ w', b.appendTo level w = .ok w' ∧ S ++ story b <+ later w') :
    ∀ (level : Nat) (S : List (List Chunk)) (w : List Chunk), S <+ later w →
      ∃ w', Node.appendAll level w bs = .ok w' ∧ S ++ stories bs <+ later w' := by
  induction bs with
  | nil => intro level S w h; exact ⟨w, rfl, by simpa only [stories, List.append_nil] using h⟩
  | cons b bs ihl =>
    intro level S w h
    obtain ⟨w1, h1, h2⟩ := ih b List.mem_cons_self level S w h
    obtain ⟨w2, h3, h4⟩ := ihl (fun b hb => ih b (List.mem_cons_of_mem _ hb)) level _ w1 h2
    refine ⟨w2, ?_, ?_⟩
    · simp only [Node.appendAll, h1, Res.bind, h3]
    · simpa only [stories, List.append_assoc] using h4

theorem heading_told {l : Loc} (hc : Concrete l) (level : Nat) {S : List (List Chunk)} {w : List Chunk} (h : S <+ later w) :
    ∃ w1, locationText level l w = .ok w1 ∧ S ++ heading l <+ later w1 := by
  have two : ∀ x y : List Str, S ++ [x.map .text, y.map .text] <+
      later (w ++ (.line level :: x.map .text ++ .line (level + 1) :: y.map .text)) := by
    intro x y
    have := later_add (later_add h (flatTexts x) level) (flatTexts y) (level + 1)
    rwa [List.append_assoc, List.append_assoc] at this
  cases l with
  | path o r e => exact ⟨_, rfl, two ["Path \"".toList, r, ['"']] ["Original ".toList, "path".toList, ": \"".toList, o, ['"']]⟩
  | uri o r => exact ⟨_, rfl, two ["URI \"".toList, r, ['"']] ["Original ".toList, "uri".toList, ": \"".toList, o, ['"']]⟩
  | _ => exact hc.elim

theorem node_told {V : Value → Prop} {n : Node} (hg : GoodNode V n) :
    ∀ (level : Nat) (S : List (List Chunk)) (w : List Chunk), S <+ later w →
      ∃ w', n.appendTo level w = .ok w' ∧ S ++ story n <+ later w' := by
  induction hg with
  | @mk kind key event value texts bs h1 _ hv hl _ ih =>
    have all := all_told ih
    intro level S w h
    cases kind with
    | root =>
      obtain ⟨w1, e1, s1⟩ := all level S w h
      exact ⟨_, (by simp only [Node.appendTo, e1, Res.bind]; rfl), later_texts _ _ s1⟩
    | dataProvider name =>
      obtain ⟨w1, e1, s1⟩ := all (level + 1) S _ (later_skip h [.text name] level)
      obtain ⟨w2, e2, s2⟩ := outcome_ok (level + 1) key texts hv s1
      exact ⟨w2, by simp only [Node.appendTo, e1, Res.bind, e2], s2⟩
    | interpolate expr =>
      obtain ⟨w1, e1, s1⟩ := all (level + 1) S _ (later_skip h [.text "Interpolation on \"".toList, .text expr, .text ['"']] level)
      exact ⟨w1, by simp only [Node.appendTo, e1], s1⟩
    | invalidKey =>
      rw [hl (.inl trivial)]
      refine ⟨_, (by simp only [Node.appendTo]; rfl), ?_⟩
      simp only [story, stories, List.append_nil]
      exact later_skip h _ _
    | segment p =>
      rw [hl (.inl trivial)]
      obtain ⟨w2, e2, s2⟩ := outcome_ok level key texts hv h
      exact ⟨w2, by simp only [Node.appendTo, e2], by simpa only [story, stories, List.append_nil] using s2⟩
    | mergeSource src =>
      rw [hl (.inl trivial)]
      refine ⟨_, (by simp only [Node.appendTo]; rfl), ?_⟩
      simp only [story, stories, List.append_nil]
      exact later_skip h _ _
    | location l =>
      obtain ⟨w0, e0, s0⟩ := heading_told h1 level h
      obtain ⟨w1, e1, s1⟩ := all (level + 1) _ _ s0
      obtain ⟨w2, e2, s2⟩ := outcome_told l (level + 1) (key := key) texts hv s1
      exact ⟨w2, by simp only [Node.appendTo, e0, e1, Res.bind, e2], by simpa only [story, List.append_assoc] using s2⟩
    | lookup =>
      have start : S <+ later (w ++ (if w.any Chunk.nonempty || level > 0 then [.line level] else []) ++
          [.text "Searching for \"".toList, .text key, .text ['"']]) := by
        split
        · simp only [List.append_assoc, List.cons_append, List.nil_append]
          exact later_skip h _ _
        · rename_i hn
          have hf : Flat w := any_line (by
            rw [Bool.not_eq_true, Bool.or_eq_false_iff] at hn
            exact hn.1)
          have : later w = [] := by unfold later; rw [lines_flat hf]; rfl
          rw [this] at h
          rw [List.eq_nil_of_sublist_nil h]
          exact List.nil_sublist _
      obtain ⟨w1, e1, s1⟩ := all (level + 1) S _ start
      exact ⟨w1, by simp only [Node.appendTo, e1], s1⟩
    | merge st =>
      match bs, ih, all with
      | [], _, _ => exact ⟨w, by simp only [Node.appendTo], by simpa only [story, stories, List.append_nil] using h⟩
      | [b], ih, _ =>
        obtain ⟨w1, e1, s1⟩ := ih b List.mem_cons_self level S w h
        exact ⟨w1, by simp only [Node.appendTo, e1], by simpa only [story, stories, List.append_nil] using s1⟩
      | b :: b' :: bs, _, all =>
        have opts : S <+ later (w ++ [.line level, .text "Merge strategy \"".toList, .text st.label, .text ['"']] ++
            optionsText (level + 1) st.options) := by
          unfold optionsText
          split
          · simp only [List.append_nil]; exact later_skip h _ _
          · exact later_skip (later_skip h _ _) _ _
        obtain ⟨w1, e1, s1⟩ := all (level + 1) S _ opts
        have res : ∃ w2, dumpResult (level + 1) event value w1 = .ok w2 ∧ S ++ stories (b :: b' :: bs) <+ later w2 := by
          cases event with
          | result =>
            cases value with
            | none => exact absurd rfl (hv rfl)
            | some v =>
              refine ⟨_, rfl, ?_⟩
              simp only [List.append_assoc, List.cons_append, List.nil_append]
              exact later_skip s1 _ _
          | _ => exact ⟨w1, rfl, s1⟩
        obtain ⟨w2, e2, s2⟩ := res
        exact ⟨w2, by simp only [Node.appendTo, e1, Res.bind, e2], s2⟩
    | module name =>
      by_cases hm : event = .moduleNotFound
      · rw [hl (.inr hm), hm]
        refine ⟨_, (by simp only [Node.appendTo]; rfl), ?_⟩
        simp only [story, stories, List.append_nil]
        exact later_skip h _ _
      · obtain ⟨w1, e1, s1⟩ := all level S w h
        obtain ⟨w2, e2, s2⟩ := outcome_ok level key texts hv s1
        refine ⟨w2, ?_, s2⟩
        cases event <;> first | exact absurd rfl hm | simp only [Node.appendTo, e1, Res.bind, e2]
    | subLookup k =>
      cases hp : k.parts with
      | nil => exact absurd hp (parsed_parts h1)
      | cons p ps =>
        have start : S <+ later (w ++ [.line level, .text "Sub key: \"".toList] ++ subKeyText ps ++ [.text ['"']]) := by
          simp only [List.append_assoc, List.cons_append, List.nil_append]
          exact later_skip h _ _
        obtain ⟨w1, e1, s1⟩ := all (level + 1) S _ start
        obtain ⟨w2, e2, s2⟩ := outcome_ok (level + 1) key texts hv s1
        exact ⟨w2, by simp only [Node.appendTo, hp, e1, Res.bind, e2], s2⟩

/-- C68: whatever an invocation has looked up and however that ended, its explanation has a text, and the lines of that text
tell each location that was consulted, as written and as resolved, whether it was there, and which value it had for which key,
in the order of the explanation. -/
theorem C68_text {E : Env} {s : St} (h : Served E (fun _ => True) s) :
    ∃ root w, s.tree = .at root [] ∧ root.render = .ok w ∧ story root <+ lines w := by
  obtain ⟨_, root, ht, hg, _⟩ := served_good (vals_true E) h
  obtain ⟨w, hw, hs⟩ := node_told hg 0 [] [] (List.nil_sublist _)
  exact ⟨root, w, ht, hw, hs.trans (List.tail_sublist _)⟩


/-- An invocation that explains: the key `k` is in the second of two files. -/
def textWorld : Env := mk (cfg [entry "a" "a.yaml", entry "b" "b.yaml", entry "c" "c.yaml"])
  [("/h/data/a.yaml".toList, .map []), ("/h/data/c.yaml".toList, .map [(s "k", s "v")])]

/-- The lines of an explanation of `k` in that world. -/
def textLines : Option (List (List Chunk) × List (List Chunk)) :=
  match (eval textWorld 8).lookup ⟨"k".toList, [.name "k".toList]⟩ [] (st [] (some ⟨false, false⟩)) with
  | some (_, t) => match t.tree with
    | .at root _ => match root.render with
      | .ok w => some (story root, lines w)
      | .panic _ => none
    | _ => none
  | none => none

/-- Texts of a line, with `*` for a value. -/
def lineText (l : List Chunk) : Str := l.flatMap fun | .text s => s | .val _ => ['*'] | .line _ => ['\n']

example : textLines.map (fun p => p.2.map lineText) = some (["Searching for \"k\"", "data_hash function 'yaml_data'",
    "Path \"/h/data/a.yaml\"", "Original path: \"a.yaml\"", "No such key: \"k\"", "data_hash function 'yaml_data'",
    "Path \"/h/data/b.yaml\"", "Original path: \"b.yaml\"", "path not found", "data_hash function 'yaml_data'",
    "Path \"/h/data/c.yaml\"", "Original path: \"c.yaml\"", "Found key: \"k\" value: *"].map String.toList) := by
  decide +kernel

example : textLines.map (fun p => p.1.map lineText) = some ([
    "Path \"/h/data/a.yaml\"", "Original path: \"a.yaml\"", "No such key: \"k\"",
    "Path \"/h/data/b.yaml\"", "Original path: \"b.yaml\"", "path not found",
    "Path \"/h/data/c.yaml\"", "Original path: \"c.yaml\"", "Found key: \"k\" value: *"].map String.toList) := by
  decide +kernel

/-- That lookup is one of an invocation. -/
example : ∃ r t, (eval textWorld 8).lookup ⟨"k".toList, [.name "k".toList]⟩ [] (st [] (some ⟨false, false⟩)) = some (r, t) ∧
    Served textWorld (fun _ => True) t := by
  have hs : ((eval textWorld 8).lookup ⟨"k".toList, [.name "k".toList]⟩ [] (st [] (some ⟨false, false⟩))).isSome = true := by
    decide +kernel
  obtain ⟨⟨r, t⟩, h⟩ := Option.isSome_iff_exists.mp hs
  exact ⟨r, t, h, .lookup (.start _ (fun _ _ _ => trivial)) (show newKey "k".toList = .ok _ by decide +kernel) trivial h⟩

end Hiera
