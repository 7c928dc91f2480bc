/- C68: the text of an explanation, line by line. -/
import Verif.Props.ExplainText

set_option autoImplicit false

namespace Hiera

open Value World

/-- A line of a text: its indentation, and the characters and values in it. How a value is written is left open. -/
abbrev Spec.PageLine := Nat × List (Char ⊕ Value)

/-- Characters and values before what is on the first line. -/
def Spec.before (x : List (Char ⊕ Value)) : List Spec.PageLine → List Spec.PageLine
  | [] => []
  | (k, l) :: ls => (k, x ++ l) :: ls

/-- Words on a line. -/
def Spec.said (s : Str) : List (Char ⊕ Value) := s.map .inl

/-- The lines of a text whose first line has this indentation. -/
def Spec.linesFrom (level : Nat) : List Chunk → List Spec.PageLine
  | [] => [(level, [])]
  | .line k :: w => (level, []) :: Spec.linesFrom k w
  | .text s :: w => Spec.before (Spec.said s) (Spec.linesFrom level w)
  | .val v :: w => Spec.before [.inr v] (Spec.linesFrom level w)

/-- Lines without an empty one in front of them. -/
def Spec.fromFirst : List Spec.PageLine → List Spec.PageLine
  | (_, []) :: ls => ls
  | ls => ls

/-- The lines of a text, without an empty one at its start. -/
def Spec.page (w : List Chunk) : List Spec.PageLine := Spec.fromFirst (Spec.linesFrom 0 w)

/-- Something with a text in quotes. -/
def Spec.quoting (title name : Str) : List (Char ⊕ Value) := Spec.said (title ++ ['"'] ++ name ++ ['"'])

/-- Parts of a key with dots between them. -/
def Spec.dottedParts (ps : List Part) : Str :=
  List.intercalate ['.'] (ps.map fun
    | .name n => n
    | .idx i => (toString i).toList)

/-- What there is to say about what was found. -/
def Spec.saysOutcome (level : Nat) (key : Str) : Event → Option Value → List Spec.PageLine
  | .notFound, _ => [(level, Spec.quoting "No such key: ".toList key)]
  | .found, some v => [(level, Spec.quoting "Found key: ".toList key ++ Spec.said " value: ".toList ++ [.inr v])]
  | .foundInDefaults, some v =>
    [(level, Spec.quoting "Found key: ".toList key ++ Spec.said " value: ".toList ++ [.inr v] ++ Spec.said " in defaults".toList)]
  | .foundInOverrides, some v =>
    [(level, Spec.quoting "Found key: ".toList key ++ Spec.said " value: ".toList ++ [.inr v] ++ Spec.said " in overrides".toList)]
  | _, _ => []

/-- What there is to say about a location: where it is, how it is written in the configuration. -/
def Spec.saysLocation (level : Nat) : Loc → List Spec.PageLine
  | .path o r _ => [(level, Spec.quoting "Path ".toList r), (level + 1, Spec.quoting "Original path: ".toList o)]
  | .uri o r => [(level, Spec.quoting "URI ".toList r), (level + 1, Spec.quoting "Original uri: ".toList o)]
  | _ => []

/-- What there is to say about a location that is not there. -/
def Spec.saysMissing (level : Nat) : Loc → Event → List Spec.PageLine
  | .path _ _ _, .locationNotFound => [(level, Spec.said "path not found".toList)]
  | .uri _ _, .locationNotFound => [(level, Spec.said "uri not found".toList)]
  | _, _ => []

/-- What there is to say about a merge before its sources. -/
def Spec.saysStrategy (level : Nat) : Strategy → List Spec.PageLine
  | .first => [(level, Spec.quoting "Merge strategy ".toList "first found strategy".toList)]
  | .unique => [(level, Spec.quoting "Merge strategy ".toList "unique merge strategy".toList)]
  | .hash => [(level, Spec.quoting "Merge strategy ".toList "hash merge strategy".toList)]
  | .deep [] => [(level, Spec.quoting "Merge strategy ".toList "deep merge strategy".toList)]
  | .deep (e :: es) => [(level, Spec.quoting "Merge strategy ".toList "deep merge strategy".toList),
      (level + 1, Spec.said "Options: ".toList ++ [.inr (.map (e :: es))])]

/-- What there is to say about a merge after its sources. -/
def Spec.saysResult (level : Nat) : Event → Option Value → List Spec.PageLine
  | .result, some v => [(level, Spec.said "Merged result: ".toList ++ [.inr v])]
  | _, _ => []

/-- Remarks, a line each. -/
def Spec.remarks (level : Nat) (texts : List Str) : List Spec.PageLine := texts.map fun t => (level, Spec.said t)

mutual
/-- An explanation as an outline. A merge of one source is not told. -/
def Spec.outline (level : Nat) : Node → List Spec.PageLine
  | .mk .root _ _ _ texts bs => Spec.outlines level bs ++ Spec.remarks level texts
  | .mk (.dataProvider name) key event value texts bs => (level, Spec.said name) :: Spec.outlines (level + 1) bs ++
      Spec.saysOutcome (level + 1) key event value ++ Spec.remarks (level + 1) texts
  | .mk (.interpolate expr) _ _ _ _ bs => (level, Spec.quoting "Interpolation on ".toList expr) :: Spec.outlines (level + 1) bs
  | .mk .invalidKey key _ _ _ _ => [(level, Spec.quoting "Invalid key ".toList key)]
  | .mk (.segment _) key event value texts _ => Spec.saysOutcome level key event value ++ Spec.remarks level texts
  | .mk (.location l) key event value texts bs => Spec.saysLocation level l ++ Spec.outlines (level + 1) bs ++
      Spec.saysMissing (level + 1) l event ++ Spec.saysOutcome (level + 1) key event value ++ Spec.remarks (level + 1) texts
  | .mk .lookup key _ _ _ bs => (level, Spec.quoting "Searching for ".toList key) :: Spec.outlines (level + 1) bs
  | .mk (.merge _) _ _ _ _ [] => []
  | .mk (.merge _) _ _ _ _ [b] => Spec.outline level b
  | .mk (.merge s) _ event value _ (b :: b' :: bs) => Spec.saysStrategy level s ++ Spec.outlines (level + 1) (b :: b' :: bs) ++
      Spec.saysResult (level + 1) event value
  | .mk (.mergeSource src) _ _ _ _ _ => [(level, Spec.said ("Using merge options from ".toList ++ src))]
  | .mk (.module name) _ .moduleNotFound _ _ _ => [(level, Spec.quoting "Module ".toList name ++ Spec.said " not found".toList)]
  | .mk (.module _) key event value texts bs => Spec.outlines level bs ++ Spec.saysOutcome level key event value ++
      Spec.remarks level texts
  | .mk (.subLookup k) key event value texts bs => (level, Spec.quoting "Sub key: ".toList (Spec.dottedParts k.parts.tail)) ::
      Spec.outlines (level + 1) bs ++ Spec.saysOutcome (level + 1) key event value ++ Spec.remarks (level + 1) texts
/-- Explanations one after the other. -/
def Spec.outlines (level : Nat) : List Node → List Spec.PageLine
  | [] => []
  | b :: bs => Spec.outline level b ++ Spec.outlines level bs
end

open Spec

theorem before_append {x : List (Char ⊕ Value)} {p q : List PageLine} (h : p ≠ []) : before x (p ++ q) = before x p ++ q := by
  cases p with
  | nil => exact absurd rfl h
  | cons a p => rfl

theorem linesFrom_ne (k : Nat) (w : List Chunk) : linesFrom k w ≠ [] := by
  induction w generalizing k with
  | nil => exact nofun
  | cons c w ih =>
    cases c with
    | line _ => exact nofun
    | text s =>
      simp only [linesFrom]
      cases h : linesFrom k w with
      | nil => exact absurd h (ih k)
      | cons a l => exact nofun
    | val s =>
      simp only [linesFrom]
      cases h : linesFrom k w with
      | nil => exact absurd h (ih k)
      | cons a l => exact nofun

theorem linesFrom_line (k j : Nat) (w x : List Chunk) : linesFrom k (w ++ .line j :: x) = linesFrom k w ++ linesFrom j x := by
  induction w generalizing k with
  | nil => rfl
  | cons c w ih =>
    cases c with
    | line i => simp only [List.cons_append, linesFrom]; rw [ih]
    | text s => simp only [List.cons_append, linesFrom]; rw [ih, before_append (linesFrom_ne _ _)]
    | val s => simp only [List.cons_append, linesFrom]; rw [ih, before_append (linesFrom_ne _ _)]

theorem fromFirst_append {p q : List PageLine} (h : p ≠ []) : fromFirst (p ++ q) = fromFirst p ++ q := by
  match p, h with
  | (_, []) :: _, _ => rfl
  | (_, _ :: _) :: _, _ => rfl

theorem page_line (j : Nat) (w x : List Chunk) : page (w ++ .line j :: x) = page w ++ linesFrom j x := by
  unfold page
  rw [linesFrom_line, fromFirst_append (linesFrom_ne _ _)]

theorem page_texts (level : Nat) (ts : List Str) (w : List Chunk) : page (dumpTexts level ts w) = page w ++ remarks level ts := by
  induction ts generalizing w with
  | nil => simp only [dumpTexts, remarks, List.map_nil, List.append_nil]
  | cons t ts ih =>
    simp only [dumpTexts]
    rw [ih, page_line]
    simp only [linesFrom, before, remarks, List.map_cons, List.append_nil, List.append_assoc, List.cons_append, List.nil_append]

/-- Is there something already? (the invariant of the text while it is written) -/
def Begun (w : List Chunk) : Prop := w = [] ∨ w.any Chunk.nonempty = true

theorem begun_line (w : List Chunk) (k : Nat) (x : List Chunk) : Begun (w ++ .line k :: x) := by
  refine .inr ?_
  rw [List.any_append, List.any_cons]
  simp only [Chunk.nonempty, Bool.true_or, Bool.or_true]

theorem begun_texts (level : Nat) (ts : List Str) {w : List Chunk} (h : Begun w) : Begun (dumpTexts level ts w) := by
  induction ts generalizing w with
  | nil => exact h
  | cons t ts ih => exact ih (begun_line _ _ _)

/-- A text `w` becomes a text with these lines too. -/
def Writes (w : List Chunk) (ls : List PageLine) (r : Res (List Chunk)) : Prop :=
  ∃ w', r = .ok w' ∧ Begun w' ∧ page w' = page w ++ ls

theorem Writes.bind {w : List Chunk} {p q : List PageLine} {r : Res (List Chunk)} {f : List Chunk → Res (List Chunk)}
    (h : Writes w p r) (hf : ∀ w', Begun w' → Writes w' q (f w')) : Writes w (p ++ q) (r.bind f) := by
  obtain ⟨w1, rfl, b1, e1⟩ := h
  obtain ⟨w2, e2, b2, e3⟩ := hf w1 b1
  exact ⟨w2, e2, b2, by rw [e3, e1, List.append_assoc]⟩

theorem Writes.line {w : List Chunk} (k : Nat) (x : List Chunk) {ls : List PageLine} (h : linesFrom k x = ls) :
    Writes w ls (.ok (w ++ .line k :: x)) :=
  ⟨_, rfl, begun_line _ _ _, by rw [page_line, h]⟩

theorem Writes.more {w w1 : List Chunk} {p q : List PageLine} {r : Res (List Chunk)} (h : Writes w p (.ok w1))
    (hf : Begun w1 → Writes w1 q r) : Writes w (p ++ q) r := by
  obtain ⟨w', e, b1, e1⟩ := h
  cases e
  obtain ⟨w2, e2, b2, e3⟩ := hf b1
  exact ⟨w2, e2, b2, by rw [e3, e1, List.append_assoc]⟩

theorem Writes.nothing {w : List Chunk} (h : Begun w) : Writes w [] (.ok w) := ⟨w, rfl, h, by rw [List.append_nil]⟩

theorem Writes.texts {w : List Chunk} (h : Begun w) (level : Nat) (ts : List Str) : Writes w (remarks level ts) (.ok (dumpTexts level ts w)) :=
  ⟨_, rfl, begun_texts level ts h, page_texts level ts w⟩

theorem said_append (a b : Str) : said (a ++ b) = said a ++ said b := List.map_append

theorem outcome_adds (level : Nat) {event : Event} (key : Str) {value : Option Value} (texts : List Str)
    (hv : event.valued = true → value ≠ none) {w : List Chunk} (h : Begun w) :
    Writes w (saysOutcome level key event value ++ remarks level texts) (dumpOutcome level event key value texts w) := by
  refine Writes.bind ?_ (fun w' h' => Writes.texts h' level texts)
  cases event with
  | notFound =>
    exact Writes.line _ _ (by simp only [linesFrom, before, List.append_nil, quoting, said_append, List.append_assoc, saysOutcome]; rfl)
  | found =>
    cases value with
    | none => exact absurd rfl (hv rfl)
    | some v =>
      simp only [dumpEvent, dumpValue, Res.bind, whereFound, List.append_assoc, List.cons_append, List.nil_append]
      exact Writes.line _ _ (by simp only [linesFrom, before, List.append_nil, quoting, said_append, List.append_assoc, saysOutcome]; rfl)
  | foundInDefaults =>
    cases value with
    | none => exact absurd rfl (hv rfl)
    | some v =>
      simp only [dumpEvent, dumpValue, Res.bind, whereFound, List.append_assoc, List.cons_append, List.nil_append]
      exact Writes.line _ _ (by simp only [linesFrom, before, List.append_nil, quoting, said_append, List.append_assoc, saysOutcome]; rfl)
  | foundInOverrides =>
    cases value with
    | none => exact absurd rfl (hv rfl)
    | some v =>
      simp only [dumpEvent, dumpValue, Res.bind, whereFound, List.append_assoc, List.cons_append, List.nil_append]
      exact Writes.line _ _ (by simp only [linesFrom, before, List.append_nil, quoting, said_append, List.append_assoc, saysOutcome]; rfl)
  | _ => exact Writes.nothing h

theorem location_adds {l : Loc} (hc : Concrete l) (level : Nat) {w : List Chunk} :
    Writes w (saysLocation level l) (locationText level l w) := by
  cases l with
  | path o r e =>
    refine Writes.line _ _ ?_
    simp only [linesFrom, before, List.append_nil, quoting, said_append, List.append_assoc, saysLocation]; rfl
  | uri o r =>
    refine Writes.line _ _ ?_
    simp only [linesFrom, before, List.append_nil, quoting, said_append, List.append_assoc, saysLocation]; rfl
  | _ => exact hc.elim

theorem missing_adds {l : Loc} (hc : Concrete l) (level : Nat) (event : Event) {w : List Chunk} (h : Begun w) :
    Writes w (saysMissing level l event) (.ok (w ++ missingText level l event)) := by
  have none : missingText level l event = [] → saysMissing level l event = [] →
      Writes w (saysMissing level l event) (.ok (w ++ missingText level l event)) := by
    intro h1 h2
    rw [h1, h2, List.append_nil]
    exact Writes.nothing h
  cases l with
  | path o r e =>
    cases event with
    | locationNotFound => exact Writes.line _ _ rfl
    | _ => exact none rfl rfl
  | uri o r =>
    cases event with
    | locationNotFound => exact Writes.line _ _ rfl
    | _ => exact none rfl rfl
  | _ => exact hc.elim

theorem linesFrom_texts (k : Nat) (x y : List Chunk) {s : Str} (h : linesFrom k x = [(k, said s)]) :
    linesFrom k (x ++ y) = before (said s) (linesFrom k y) := by
  induction x generalizing s with
  | nil =>
    simp only [linesFrom, List.cons.injEq, Prod.mk.injEq, true_and, and_true] at h
    rw [← h]
    simp only [List.nil_append]
    cases h' : linesFrom k y with
    | nil => rfl
    | cons a l => rfl
  | cons c x ih =>
    cases c with
    | line j =>
      simp only [linesFrom, List.cons.injEq] at h
      exact absurd h.2 (linesFrom_ne _ _)
    | text t =>
      simp only [linesFrom, List.cons_append] at h ⊢
      match hx : linesFrom k x with
      | [] => exact absurd hx (linesFrom_ne _ _)
      | (j, l) :: ls =>
        rw [hx] at h
        simp only [before, List.cons.injEq, Prod.mk.injEq] at h
        obtain ⟨⟨rfl, h2⟩, rfl⟩ := h
        obtain ⟨s', rfl⟩ : ∃ s', l = said s' := by
          obtain ⟨a, b, _, _, hb⟩ := List.map_eq_append_iff.mp h2.symm
          exact ⟨b, hb.symm⟩
        rw [ih hx]
        match linesFrom j y with
        | [] => rfl
        | (i, m) :: ms => simp only [before, ← h2, List.append_assoc]
    | val v =>
      simp only [linesFrom] at h
      match hx : linesFrom k x with
      | [] => exact absurd hx (linesFrom_ne _ _)
      | (j, l) :: ls =>
        rw [hx] at h
        simp only [before, List.cons.injEq, Prod.mk.injEq] at h
        obtain ⟨⟨rfl, h2⟩, rfl⟩ := h
        cases s with
        | nil => exact nomatch h2
        | cons c s => simp only [said, List.map_cons, List.cons_append, List.cons.injEq, reduceCtorEq, false_and] at h2

theorem subKey_lines (k : Nat) (ps : List Part) : linesFrom k (subKeyText ps) = [(k, said (dottedParts ps))] := by
  induction ps with
  | nil => rfl
  | cons p ps ih =>
    have hp : ∀ p : Part, p.text = (match p with | .name n => n | .idx i => (toString i).toList) := fun p => by cases p <;> rfl
    cases ps with
    | nil =>
      simp only [subKeyText, linesFrom, before, dottedParts, List.map_cons, List.map_nil, List.append_nil, List.intercalate,
        List.intersperse, List.flatten_cons, List.flatten_nil, hp]
    | cons q ps =>
      simp only [subKeyText, linesFrom] at ih ⊢
      rw [ih]
      simp only [before, dottedParts, List.map_cons, List.intercalate, List.intersperse, List.flatten_cons, said_append, hp]

theorem all_added {bs : List Node} (ih : ∀ b ∈ bs, ∀ (level : Nat) (w : List Chunk), Begun w →
      Writes w (outline level b) (b.appendTo level w)) :
    ∀ (level : Nat) (w : List Chunk), Begun w → Writes w (outlines level bs) (Node.appendAll level w bs) := by
  induction bs with
  | nil => intro level w h; exact Writes.nothing h
  | cons b bs ihl =>
    intro level w h
    simp only [outlines, Node.appendAll]
    exact (ih b List.mem_cons_self level w h).bind (fun w' h' => ihl (fun b hb => ih b (List.mem_cons_of_mem _ hb)) level w' h')

/-- A node that can be written: its fields are what its kind needs, and events that need a value have one. -/
inductive WritableNode : Node → Prop
  | mk {kind : NodeKind} {key : Str} {event : Event} {value : Option Value} {texts : List Str} {branches : List Node} :
    KindOk kind → (event.valued = true → value ≠ none) → (∀ b ∈ branches, WritableNode b) →
    WritableNode (.mk kind key event value texts branches)

theorem good_writable {V : Value → Prop} {n : Node} (h : GoodNode V n) : WritableNode n := by
  induction h with
  | mk h1 _ h3 _ _ ih => exact .mk h1 h3 ih

theorem node_added {n : Node} (hg : WritableNode n) :
    ∀ (level : Nat) (w : List Chunk), Begun w → Writes w (outline level n) (n.appendTo level w) := by
  induction hg with
  | @mk kind key event value texts bs h1 hv _ ih =>
    have all := all_added ih
    intro level w h
    cases kind with
    | root =>
      simp only [Node.appendTo, outline]
      exact (all level w h).bind (fun w' h' => Writes.texts h' level texts)
    | dataProvider name =>
      simp only [Node.appendTo, outline, List.append_assoc, List.cons_append]
      refine Writes.more (p := [(level, said name)]) (Writes.line _ _ ?_) (fun h' => (all (level + 1) _ h').bind
        (fun w' h' => outcome_adds (level + 1) key texts hv h'))
      simp only [linesFrom, before, List.append_nil]
    | interpolate expr =>
      simp only [Node.appendTo, outline]
      refine Writes.more (p := [_]) (Writes.line _ _ ?_) (fun h' => all (level + 1) _ h')
      simp only [linesFrom, before, List.append_nil, quoting, said_append, List.append_assoc]; rfl
    | invalidKey =>
      simp only [Node.appendTo, outline]
      refine Writes.line _ _ ?_
      simp only [linesFrom, before, List.append_nil, quoting, said_append, List.append_assoc]; rfl
    | segment p =>
      simp only [Node.appendTo, outline]
      exact outcome_adds level key texts hv h
    | mergeSource src =>
      simp only [Node.appendTo, outline]
      refine Writes.line _ _ ?_
      simp only [linesFrom, before, List.append_nil, said_append]
    | location l =>
      simp only [Node.appendTo, outline, List.append_assoc]
      refine (location_adds h1 level).bind (fun w1 b1 => (all (level + 1) w1 b1).bind (fun w2 b2 => ?_))
      exact (missing_adds h1 (level + 1) event b2).more (fun b3 => outcome_adds (level + 1) key texts hv b3)
    | lookup =>
      simp only [Node.appendTo, outline]
      refine Writes.more (p := [_]) ?_ (fun h' => all (level + 1) _ h')
      have text : ∀ k, linesFrom k [.text "Searching for \"".toList, .text key, .text ['"']] =
          [(k, quoting "Searching for ".toList key)] := by
        intro k
        simp only [linesFrom, before, List.append_nil, quoting, said_append, List.append_assoc]; rfl
      split
      · rw [List.append_assoc]
        exact Writes.line _ _ (text level)
      · rename_i hn
        rw [Bool.not_eq_true, Bool.or_eq_false_iff] at hn
        rcases h with rfl | h
        · have h0 : level = 0 := by simpa using hn.2
          subst h0
          exact ⟨_, rfl, .inr rfl, by unfold page; rw [List.append_nil, List.nil_append, text 0]; rfl⟩
        · rw [hn.1] at h; cases h
    | merge st =>
      match bs, ih, all with
      | [], _, _ => simp only [Node.appendTo, outline]; exact Writes.nothing h
      | [b], ih, _ => simp only [Node.appendTo, outline]; exact ih b List.mem_cons_self level w h
      | b :: b' :: bs, _, all =>
        simp only [Node.appendTo, outline, List.append_assoc]
        refine Writes.more (p := saysStrategy level st) ?_ (fun b1 => (all (level + 1) _ b1).bind (fun w2 b2 => ?_))
        · cases st with
          | deep opts => cases opts <;> exact Writes.line _ _ rfl
          | _ => exact Writes.line _ _ rfl
        · cases event with
          | result =>
            cases value with
            | none => exact absurd rfl (hv rfl)
            | some v =>
              simp only [dumpResult, dumpValue, List.append_assoc]
              exact Writes.line _ _ rfl
          | _ => exact Writes.nothing b2
    | module name =>
      by_cases hm : event = .moduleNotFound
      · subst hm
        simp only [Node.appendTo, outline]
        refine Writes.line _ _ ?_
        simp only [linesFrom, before, List.append_nil, quoting, said_append, List.append_assoc]; rfl
      · have e1 : Node.appendTo level w (.mk (.module name) key event value texts bs) =
            (Node.appendAll level w bs).bind fun w => dumpOutcome level event key value texts w := by
          cases event <;> first | exact absurd rfl hm | simp only [Node.appendTo]
        have e2 : outline level (.mk (.module name) key event value texts bs) =
            outlines level bs ++ (saysOutcome level key event value ++ remarks level texts) := by
          rw [← List.append_assoc]
          cases event <;> first | exact absurd rfl hm | simp only [outline]
        rw [e1, e2]
        exact (all level w h).bind (fun w' h' => outcome_adds level key texts hv h')
    | subLookup k =>
      cases hp : k.parts with
      | nil => exact absurd hp (parsed_parts h1)
      | cons p ps =>
        simp only [Node.appendTo, outline, hp, List.tail_cons, List.append_assoc, List.cons_append]
        refine Writes.more (p := [_]) (Writes.line _ _ ?_) (fun h' => (all (level + 1) _ h').bind
          (fun w' h' => outcome_adds (level + 1) key texts hv h'))
        simp only [linesFrom, List.nil_append]
        rw [linesFrom_texts _ _ _ (subKey_lines level ps)]
        simp only [linesFrom, before, List.append_nil, quoting, said_append, List.append_assoc]; rfl

/-- C68: whatever an invocation has looked up and however that ended, the text of its explanation is the outline of the
explanation, line by line. -/
theorem C68_page {E : Env} {s : St} (h : Served E (fun _ => True) s) :
    ∃ root w, s.tree = .at root [] ∧ root.render = .ok w ∧ page w = outline 0 root := by
  obtain ⟨_, root, ht, hg, _⟩ := served_good (vals_true E) h
  obtain ⟨w, hw, _, hs⟩ := node_added (good_writable hg) 0 [] (.inl rfl)
  exact ⟨root, w, ht, hw, hs⟩

/-- The text of a line, with `*` for a value. -/
def pageText (l : PageLine) : Str := List.replicate (2 * l.1) ' ' ++ l.2.map fun | .inl c => c | .inr _ => '*'

/-- The outline of an explanation of `k.1.b` with a merge. -/
def pageWorld : Env := mk (cfg [entry "a" "a.yaml", entry "b" "b.yaml"])
  [("/h/data/a.yaml".toList, .map [(s "k", .arr [s "x", .map [(s "b", s "%{lookup('l')}")]]), (s "l", s "v")])]

def pageLines : Option (List Str) :=
  match (eval pageWorld 10).lookup ⟨"k.1.b".toList, [.name "k".toList, .idx 1, .name "b".toList]⟩
      [(s "merge", s "unique")] (st [] (some ⟨false, false⟩)) with
  | some (_, t) => match t.tree with
    | .at root _ => some ((outline 0 root).map pageText)
    | _ => none
  | none => none

example : pageLines = some ([
    "Searching for \"k\"",
    "  Using merge options from CLI option",
    "  Merge strategy \"unique merge strategy\"",
    "    data_hash function 'yaml_data'",
    "      Path \"/h/data/a.yaml\"",
    "        Original path: \"a.yaml\"",
    "        Interpolation on \"%{lookup('l')}\"",
    "          Merge strategy \"unique merge strategy\"",
    "            data_hash function 'yaml_data'",
    "              Path \"/h/data/a.yaml\"",
    "                Original path: \"a.yaml\"",
    "                Found key: \"l\" value: *",
    "            data_hash function 'yaml_data'",
    "              Path \"/h/data/b.yaml\"",
    "                Original path: \"b.yaml\"",
    "                path not found",
    "            Merged result: *",
    "        Found key: \"k\" value: *",
    "    data_hash function 'yaml_data'",
    "      Path \"/h/data/b.yaml\"",
    "        Original path: \"b.yaml\"",
    "        path not found",
    "    Merged result: *",
    "Sub key: \"1.b\"",
    "  Found key: \"1\" value: *",
    "  Found key: \"b\" value: *"].map String.toList) := by
  decide +kernel

end Hiera
