/- C108: an explainer tells what it was told. -/
import Verif.Spec.Telling
import Mathlib.Data.List.Induction

set_option autoImplicit false

namespace Hiera
open Value Spec World

mutual
/-- A node after something was told at it. -/
def nodeAfter : Telling → Node → Node
  | .remark t, n => n.appendText t
  | .found k v, n => n.found k v
  | .foundInDefaults k v, n => n.foundInDefaults k v
  | .foundInOverrides k v, n => n.foundInOverrides k v
  | .notFound k, n => n.notFound k
  | .locationNotFound, n => n.locationNotFound
  | .moduleNotFound, n => n.moduleNotFound
  | .merged v, n => n.result v
  | .source src, n => n.mergeSource src
  | .within kind key ts, n => n.appendBranch (nodeAfterAll ts (.new kind key))
def nodeAfterAll : List Telling → Node → Node
  | [], n => n
  | t :: ts, n => nodeAfterAll ts (nodeAfter t n)
end

mutual
theorem tell_at : ∀ (t : Telling) (n : Node) (ups : List Node), t.tell (.at n ups) = some (.at (nodeAfter t n) ups)
  | .remark _, _, _ | .found _ _, _, _ | .foundInDefaults _ _, _, _ | .foundInOverrides _ _, _, _ | .notFound _, _, _ | .locationNotFound, _, _
  | .moduleNotFound, _, _ | .merged _, _, _ | .source _, _, _ => by simp only [Telling.tell, nodeAfter, Tree.accept]
  | .within kind key ts, n, ups => by
    simp only [Telling.tell, nodeAfter, Tree.push, Option.bind_some]
    rw [tellAll_at ts (.new kind key) (n :: ups)]
    rfl
theorem tellAll_at : ∀ (ts : List Telling) (n : Node) (ups : List Node), tellAll ts (.at n ups) = some (.at (nodeAfterAll ts n) ups)
  | [], n, ups => by simp only [tellAll, nodeAfterAll]
  | t :: ts, n, ups => by
    simp only [tellAll, nodeAfterAll]
    rw [tell_at t n ups, Option.bind_some, tellAll_at ts]
end

/-- The branch that something told adds. -/
def branchOf : Telling → Option Node
  | .source src => some (.new (.mergeSource src))
  | .within kind key ts => some (nodeAfterAll ts (.new kind key))
  | _ => none

/-- How a node's event and value fit to how it was told to end. -/
inductive EndsAs (key : Str) : Option Telling → Str → Event → Option Value → Prop
  | nothing : EndsAs key none key .none none
  | found {k v} : EndsAs key (some (.found k v)) k .found (some v)
  | foundInDefaults {k v} : EndsAs key (some (.foundInDefaults k v)) k .foundInDefaults (some v)
  | foundInOverrides {k v} : EndsAs key (some (.foundInOverrides k v)) k .foundInOverrides (some v)
  | notFound {k v} : EndsAs key (some (.notFound k)) k .notFound v
  | locationNotFound {k v} : EndsAs key (some .locationNotFound) k .locationNotFound v
  | moduleNotFound {k v} : EndsAs key (some .moduleNotFound) k .moduleNotFound v
  | merged {k v} : EndsAs key (some (.merged v)) k .result (some v)

structure After (key : Str) (ts : List Telling) (n m : Node) : Prop where
  kind : m.kind = n.kind
  branches : m.branches = n.branches ++ ts.filterMap branchOf
  texts : m.texts = n.texts ++ ts.filterMap Telling.text

theorem after_fields (key : Str) : ∀ (ts : List Telling) (n : Node), After key ts n (nodeAfterAll ts n)
  | [], n => ⟨by simp only [nodeAfterAll], by simp [nodeAfterAll], by simp [nodeAfterAll]⟩
  | t :: ts, n => by
    obtain ⟨h1, h2, h3⟩ := after_fields key ts (nodeAfter t n)
    simp only [nodeAfterAll]
    refine ⟨h1.trans ?_, h2.trans ?_, h3.trans ?_⟩
    · cases t <;> simp only [nodeAfter] <;> rfl
    · cases t <;> simp [List.filterMap_cons, nodeAfter, branchOf, Node.appendBranch, Node.mergeSource, Node.branches, Node.appendText, Node.found, Node.foundInDefaults,
        Node.foundInOverrides, Node.notFound, Node.locationNotFound, Node.moduleNotFound, Node.result]
    · cases t <;> simp [List.filterMap_cons, nodeAfter, Telling.text, Node.appendBranch, Node.mergeSource, Node.texts, Node.appendText, Node.found, Node.foundInDefaults,
        Node.foundInOverrides, Node.notFound, Node.locationNotFound, Node.moduleNotFound, Node.result]

theorem nodeAfterAll_append (ts : List Telling) (t : Telling) : ∀ n, nodeAfterAll (ts ++ [t]) n = nodeAfter t (nodeAfterAll ts n) := by
  induction ts with
  | nil => intro n; simp only [List.nil_append, nodeAfterAll]
  | cons u ts ih => intro n; simp only [List.cons_append, nodeAfterAll]; exact ih _

theorem after_ends (kind : NodeKind) (key : Str) (ts : List Telling) :
    EndsAs key (ended ts) (nodeAfterAll ts (.new kind key)).key (nodeAfterAll ts (.new kind key)).event (nodeAfterAll ts (.new kind key)).value := by
  induction ts using List.reverseRecOn with
  | nil => simp only [nodeAfterAll]; exact .nothing
  | append_singleton ts t ih =>
    rw [nodeAfterAll_append]
    have keep : t.isOutcome = false → ended (ts ++ [t]) = ended ts := fun h => by
      unfold ended
      rw [List.filter_append, List.filter_cons_of_neg (by simp [h]), List.filter_nil, List.append_nil]
    have last : t.isOutcome = true → ended (ts ++ [t]) = some t := fun h => by
      unfold ended
      rw [List.filter_append, List.filter_cons_of_pos h, List.filter_nil, List.getLast?_append]
      rfl
    cases t <;> simp only [nodeAfter]
    case remark => rw [keep rfl]; exact ih
    case source => rw [keep rfl]; exact ih
    case within => rw [keep rfl]; exact ih
    all_goals rw [last rfl]; constructor

theorem key_kept {key : Str} : ∀ (ts : List Telling) (n : Node), n.key = key → (∀ t ∈ ts, ∀ k, t.keyOf = some k → k = key) → (nodeAfterAll ts n).key = key
  | [], n, hn, _ => by simp only [nodeAfterAll]; exact hn
  | t :: ts, n, hn, h => by
    simp only [nodeAfterAll]
    refine key_kept ts _ ?_ (fun u hu => h u (by simp [hu]))
    have ht := h t (by simp)
    cases t <;> simp only [nodeAfter]
    case found k v => exact ht k rfl
    case foundInDefaults k v => exact ht k rfl
    case foundInOverrides k v => exact ht k rfl
    case notFound k => exact ht k rfl
    all_goals exact hn

theorem outlines_append (level : Nat) (as bs : List Node) : outlines level (as ++ bs) = outlines level as ++ outlines level bs := by
  induction as with
  | nil => simp [outlines]
  | cons a as ih => simp only [List.cons_append, outlines, ih, List.append_assoc]

theorem ends_outcome {key k : Str} {t : Option Telling} {e : Event} {v : Option Value} (h : EndsAs key t k e v) (level : Nat) :
    saysOutcome level k e v = outcomeLine level t := by
  cases h <;> rfl

theorem ends_missing {key k : Str} {t : Option Telling} {e : Event} {v : Option Value} (h : EndsAs key t k e v) (level : Nat) (l : Loc) :
    saysMissing level l e = missingLine level l t := by
  cases h <;> cases l <;> rfl

theorem ends_merged {key k : Str} {t : Option Telling} {e : Event} {v : Option Value} (h : EndsAs key t k e v) (level : Nat) :
    saysResult level e v = mergedLine level t := by
  cases h <;> rfl

theorem remarks_told (level : Nat) (ts : List Telling) : remarks level (ts.filterMap Telling.text) = remarkLines level ts := by
  unfold remarks remarkLines
  rw [List.map_filterMap]

theorem part_branches (ts : List Telling) : (ts.filterMap branchOf).length = ts.countP Telling.isPart := by
  induction ts with
  | nil => rfl
  | cons t ts ih => cases t <;> simp [List.filterMap_cons, List.countP_cons, branchOf, Telling.isPart, ih]

theorem node_eta (n : Node) : n = .mk n.kind n.key n.event n.value n.texts n.branches := by cases n; rfl

mutual
theorem told_branch : ∀ (t : Telling) (level : Nat), Proper t → outlines level (branchOf t).toList = account level t
  | .remark _, _, _ | .found _ _, _, _ | .foundInDefaults _ _, _, _ | .foundInOverrides _ _, _, _ | .notFound _, _, _ | .locationNotFound, _, _
  | .moduleNotFound, _, _ | .merged _, _, _ => by simp [branchOf, outlines, account]
  | .source _, _, _ => by simp [branchOf, outlines, account, Node.new, outline]
  | .within kind key ts, level, h => by
    obtain ⟨hroot, hsrc, hkey, hts⟩ : kind ≠ .root ∧ (∀ s, kind ≠ .mergeSource s) ∧
        (kind = .lookup ∨ kind = .invalidKey → ∀ t ∈ ts, ∀ k, t.keyOf = some k → k = key) ∧ ∀ t ∈ ts, Proper t := by
      cases h with
      | accept h => exact absurd rfl (h kind key ts)
      | within _ h1 h2 h3 h4 => exact ⟨h1, h2, h3, h4⟩
    have inner := fun level => told_branches ts level hts
    obtain ⟨f1, f2, f3⟩ := after_fields key ts (.new kind key)
    have ends := after_ends kind key ts
    have kk := fun h => key_kept (key := key) ts (.new kind key) rfl (hkey h)
    have cnt := part_branches ts
    show outlines level [nodeAfterAll ts (.new kind key)] = _
    generalize nodeAfterAll ts (.new kind key) = n at *
    obtain ⟨k', key', ev, v, txs, bs⟩ := n
    simp only [Node.kind, Node.branches, Node.texts, Node.key, Node.event, Node.value, Node.new, List.nil_append] at f1 f2 f3 ends kk
    subst f1 f2 f3
    simp only [outlines, List.append_nil]
    cases k' with
    | root => exact absurd rfl hroot
    | mergeSource s => exact absurd rfl (hsrc s)
    | dataProvider name => simp only [outline, account, inner, ends_outcome ends, remarks_told]
    | interpolate expr => simp only [outline, account, inner]
    | invalidKey => simp only [outline, account, kk (.inr rfl)]
    | segment p => simp only [outline, account, ends_outcome ends, remarks_told]
    | location l => simp only [outline, account, inner, ends_outcome ends, ends_missing ends, remarks_told]
    | lookup => simp only [outline, account, inner, kk (.inl rfl)]
    | merge s =>
      rw [account, ← cnt]
      have i0 := inner level
      have i1 := inner (level + 1)
      generalize ts.filterMap branchOf = bs at *
      match bs with
      | [] => simp only [outline, List.length_nil]
      | [b] =>
        simp only [outline, List.length_cons, List.length_nil]
        rw [← i0]
        simp only [outlines, List.append_nil]
      | b :: b' :: bs =>
        simp only [outline, List.length_cons]
        rw [← i1, ends_merged ends]
    | module name =>
      rw [account]
      by_cases he : ev = .moduleNotFound
      · subst he
        generalize ended ts = o at *
        cases ends
        simp only [outline, noModule]
      · have hn : noModule (ended ts) = false := by
          revert ends
          generalize ended ts = o
          intro ends
          cases ends <;> first | rfl | exact absurd rfl he
        have e1 := ends_outcome ends level
        rw [hn]
        show outline level (.mk (.module name) key' ev v _ _) = accounts level ts ++ outcomeLine level (ended ts) ++ remarkLines level ts
        rw [← inner, ← e1, ← remarks_told]
        cases ev <;> first | exact absurd rfl he | (rw [outline]; intro h; cases h)
    | subLookup k => simp only [outline, account, inner, ends_outcome ends, remarks_told]
theorem told_branches : ∀ (ts : List Telling) (level : Nat), (∀ t ∈ ts, Proper t) → outlines level (ts.filterMap branchOf) = accounts level ts
  | [], _, _ => by simp [outlines, accounts]
  | t :: ts, level, h => by
    have h1 := told_branch t level (h t (by simp))
    have h2 := told_branches ts level (fun u hu => h u (by simp [hu]))
    rw [accounts, ← h1, ← h2, ← outlines_append]
    cases hb : branchOf t with
    | none => rw [List.filterMap_cons_none hb]; rfl
    | some b => rw [List.filterMap_cons_some hb]; rfl
end

theorem new_writable {kind : NodeKind} (h : KindOk kind) (key : Str) : WritableNode (.new kind key) := .mk h (fun h => nomatch h) (fun _ h => nomatch h)

mutual
theorem after_writable : ∀ (t : Telling) (n : Node), Proper t → WritableNode n → WritableNode (nodeAfter t n)
  | .remark _, _, _, .mk h1 h2 h3 => by simp only [nodeAfter]; exact .mk h1 h2 h3
  | .found _ _, _, _, .mk h1 _ h3 => by simp only [nodeAfter]; exact .mk h1 (fun _ => nofun) h3
  | .foundInDefaults _ _, _, _, .mk h1 _ h3 => by simp only [nodeAfter]; exact .mk h1 (fun _ => nofun) h3
  | .foundInOverrides _ _, _, _, .mk h1 _ h3 => by simp only [nodeAfter]; exact .mk h1 (fun _ => nofun) h3
  | .notFound _, _, _, .mk h1 _ h3 => by simp only [nodeAfter]; exact .mk h1 (fun h => nomatch h) h3
  | .locationNotFound, _, _, .mk h1 _ h3 => by simp only [nodeAfter]; exact .mk h1 (fun h => nomatch h) h3
  | .moduleNotFound, _, _, .mk h1 _ h3 => by simp only [nodeAfter]; exact .mk h1 (fun h => nomatch h) h3
  | .merged _, _, _, .mk h1 _ h3 => by simp only [nodeAfter]; exact .mk h1 (fun _ => nofun) h3
  | .source _, _, _, .mk h1 h2 h3 => by
    simp only [nodeAfter]
    refine .mk h1 h2 (fun b hb => ?_)
    rcases List.mem_append.1 hb with hb | hb
    · exact h3 b hb
    · rw [List.mem_singleton.1 hb]; exact new_writable (kind := .mergeSource _) trivial _
  | .within kind key ts, _, hp, .mk h1 h2 h3 => by
    simp only [nodeAfter]
    obtain ⟨hk, hts⟩ : KindOk kind ∧ ∀ t ∈ ts, Proper t := by
      cases hp with
      | accept h => exact absurd rfl (h kind key ts)
      | within h0 _ _ _ h4 => exact ⟨h0, h4⟩
    have := afterAll_writable ts (.new kind key) hts (new_writable hk key)
    refine .mk h1 h2 (fun b hb => ?_)
    rcases List.mem_append.1 hb with hb | hb
    · exact h3 b hb
    · rw [List.mem_singleton.1 hb]; exact this
theorem afterAll_writable : ∀ (ts : List Telling) (n : Node), (∀ t ∈ ts, Proper t) → WritableNode n → WritableNode (nodeAfterAll ts n)
  | [], _, _, hn => by simp only [nodeAfterAll]; exact hn
  | t :: ts, n, h, hn => by
    simp only [nodeAfterAll]
    exact afterAll_writable ts _ (fun u hu => h u (by simp [hu])) (after_writable t n (h t (by simp)) hn)
end

/-- C108: the text of an explainer is the account of what it was told, line by line, whatever that was. -/
theorem C108_told (ts : List Telling) (h : ∀ t ∈ ts, Proper t) :
    ∃ root w, tellAll ts Tree.new = some (.at root []) ∧ root.render = .ok w ∧ page w = accounts 0 ts ++ remarkLines 0 ts := by
  refine ⟨nodeAfterAll ts (.new .root), ?_⟩
  obtain ⟨w, hw, _, hs⟩ := node_added (afterAll_writable ts (.new .root) h (new_writable (kind := .root) trivial _)) 0 [] (.inl rfl)
  refine ⟨w, tellAll_at ts _ _, hw, hs.trans ?_⟩
  have inner := told_branches ts 0 h
  obtain ⟨f1, f2, f3⟩ := after_fields [] ts (.new .root)
  generalize nodeAfterAll ts (.new .root) = n at *
  obtain ⟨k', key', ev, v, txs, bs⟩ := n
  simp only [Node.kind, Node.branches, Node.texts, Node.new, List.nil_append] at f1 f2 f3
  subst f1 f2 f3
  rw [show page [] = [] from rfl, List.nil_append]
  simp only [outline, inner, remarks_told]

/-! A concrete case: what was told, and the lines of the text, with `*` for a value. -/

/-- A lookup in overrides, in one level, and in defaults. -/
def toldStory : List Telling := [
  .within .lookup "k".toList [
    .source "CLI option".toList,
    .within (.merge (.unique)) [] [
      .within (.dataProvider "data_hash function 'yaml_data'".toList) [] [
        .remark "a remark".toList,
        .within (.location (.path "a.yaml".toList "/h/a.yaml".toList false)) [] [.locationNotFound],
        .within (.location (.uri "http://b".toList "http://b".toList)) [] [.notFound "k".toList, .found "k".toList (.int 1)],
        .notFound "k".toList],
      .within (.module "m".toList) [] [.moduleNotFound],
      .merged (.int 1)]],
  .within .invalidKey "a..b".toList [],
  .within (.segment (.name "x".toList)) [] [.foundInDefaults "x".toList (.int 2)],
  .within (.segment (.idx 1)) [] [.foundInOverrides "1".toList (.int 3)]]

example : (accounts 0 toldStory ++ remarkLines 0 toldStory).map pageText = [
    "Searching for \"k\"",
    "  Using merge options from CLI option",
    "  Merge strategy \"unique merge strategy\"",
    "    data_hash function 'yaml_data'",
    "      Path \"/h/a.yaml\"",
    "        Original path: \"a.yaml\"",
    "        path not found",
    "      URI \"http://b\"",
    "        Original uri: \"http://b\"",
    "        Found key: \"k\" value: *",
    "      No such key: \"k\"",
    "      a remark",
    "    Module \"m\" not found",
    "    Merged result: *",
    "Invalid key \"a..b\"",
    "Found key: \"x\" value: * in defaults",
    "Found key: \"1\" value: * in overrides"].map String.toList := by decide +kernel

/-- The story can be told. -/
theorem toldStory_proper : ∀ t ∈ toldStory, Proper t := by
  have nil : ∀ t ∈ ([] : List Telling), Proper t := fun _ h => nomatch h
  have cons : ∀ {t : Telling} {ts : List Telling}, Proper t → (∀ t ∈ ts, Proper t) → ∀ u ∈ t :: ts, Proper u := fun h1 h2 =>
    List.forall_mem_cons.2 ⟨h1, h2⟩
  have node : ∀ {kind : NodeKind} {ts : List Telling}, KindOk kind → kind ≠ .root → (∀ s, kind ≠ .mergeSource s) →
      ¬ (kind = .lookup ∨ kind = .invalidKey) → (∀ t ∈ ts, Proper t) → Proper (.within kind [] ts) := fun h1 h2 h3 h4 h5 =>
    .within h1 h2 h3 (fun h => absurd h h4) h5
  have acc : ∀ {t : Telling}, (∀ kind key ts, t ≠ .within kind key ts) → Proper t := fun h => .accept h
  refine cons (.within trivial nofun nofun ?_ (cons (acc nofun) (cons (node trivial nofun nofun (by simp)
    (cons (node trivial nofun nofun (by simp) (cons (acc nofun) (cons (node ?_ nofun nofun (by simp) (cons (acc nofun) nil))
      (cons (node ?_ nofun nofun (by simp) (cons (acc nofun) (cons (acc nofun) nil))) (cons (acc nofun) nil)))))
      (cons (node trivial nofun nofun (by simp) (cons (acc nofun) nil)) (cons (acc nofun) nil)))) nil)))
    (cons (.within trivial nofun nofun (fun _ _ h => nomatch h) nil)
      (cons (node trivial nofun nofun (by simp) (cons (acc nofun) nil)) (cons (node trivial nofun nofun (by simp) (cons (acc nofun) nil)) nil)))
  · intro _ t ht k hk
    simp only [List.mem_cons, List.not_mem_nil, or_false] at ht
    rcases ht with rfl | rfl <;> cases hk
  · exact trivial
  · exact trivial

example : ∃ root w, tellAll toldStory Tree.new = some (.at root []) ∧ root.render = .ok w ∧ page w = accounts 0 toldStory ++ remarkLines 0 toldStory :=
  C108_told toldStory toldStory_proper

end Hiera
