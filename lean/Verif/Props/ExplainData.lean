/- C64: explanations as data. -/
import Verif.Model.ExplainData

set_option autoImplicit false

namespace Hiera

open Item

/-- A key that `NewKey` makes. -/
def Spec.Parsed (k : Key) : Prop := newKey k.source = .ok k

/-- The keys of a node of this kind are such. -/
def Spec.Sound : NodeKind → Prop
  | .subLookup k => Spec.Parsed k
  | _ => True

/-- So are those of a node and its branches, at any depth. -/
inductive Spec.SoundNode : Node → Prop
  | mk {kind : NodeKind} {key : Str} {event : Event} {value : Option Value} {texts : List Str} {branches : List Node} :
    Spec.Sound kind → (∀ b ∈ branches, SoundNode b) → SoundNode (.mk kind key event value texts branches)

open Spec

theorem get_append (k : Str) (m m' : List (Str × Item)) : get k (m ++ m') = (get k m).or (get k m') := by
  induction m with
  | nil => rfl
  | cons e m ih =>
    obtain ⟨k', i⟩ := e
    simp only [List.cons_append, Item.get]
    split <;> simp_all

theorem ofText_text (e : Event) : Event.ofText e.text = e := by cases e <;> decide +kernel

theorem nodes_map (bs : List Node) : nodes (bs.map .node) = .ok bs := by
  induction bs with
  | nil => rfl
  | cons b bs ih => simp only [List.map_cons, nodes, ih]

/-- The names that the fields of kinds have. -/
def ownNames : List Str :=
  ["providerName", "expression", "segment", "location", "strategy", "options", "mergeSource", "moduleName", "subKey"].map String.toList

theorem get_absent {k : Str} {m : List (Str × Item)} (h : ∀ e ∈ m, e.1 ≠ k) : get k m = none := by
  induction m with
  | nil => rfl
  | cons e m ih =>
    obtain ⟨k', i⟩ := e
    simp only [Item.get]
    rw [if_neg (fun e => h (k', i) List.mem_cons_self e.symm), ih fun e he => h e (List.mem_cons_of_mem _ he)]

theorem ownFields_names (kind : NodeKind) : ∀ e ∈ ownFields kind, e.1 ∈ ownNames := by
  intro e he
  cases kind with
  | segment p => cases p <;> (simp only [ownFields, List.mem_singleton] at he; subst he; dsimp only; decide +kernel)
  | merge s =>
    simp only [ownFields] at he
    split at he
    · exact nomatch he
    · split at he <;> simp only [List.mem_cons, List.not_mem_nil, or_false] at he <;> rcases he with rfl | rfl <;> dsimp only <;> decide +kernel
  | root => exact nomatch he
  | invalidKey => exact nomatch he
  | lookup => exact nomatch he
  | _ => simp only [ownFields, List.mem_singleton] at he; subst he; dsimp only; decide +kernel

/-- The names that the fields of all nodes have. -/
def commonNames : List Str := ["branches", "event", "key", "value", "texts"].map String.toList

theorem common_names (bs : List Item) (key : Str) (event : Event) (value : Option Value) (texts : List Str) :
    ∀ e ∈ branchesField bs ++ commonFields key event value texts, e.1 ∈ commonNames := by
  intro e he
  simp only [branchesField, commonFields, List.mem_append] at he
  rcases he with he | ((he | he) | he) | he
  · split at he <;> simp only [List.mem_singleton, List.not_mem_nil] at he; subst he; dsimp only; decide +kernel
  · split at he <;> simp only [List.mem_singleton, List.not_mem_nil] at he; subst he; dsimp only; decide +kernel
  · split at he <;> simp only [List.mem_singleton, List.not_mem_nil] at he; subst he; dsimp only; decide +kernel
  · cases value <;> simp only [valueField, List.mem_singleton, List.not_mem_nil] at he; subst he; dsimp only; decide +kernel
  · split at he <;> simp only [List.mem_singleton, List.not_mem_nil] at he; subst he; dsimp only; decide +kernel

theorem names_apart : ∀ a ∈ ownNames, ∀ b ∈ commonNames, a ≠ b := by decide +kernel

theorem get_if (k k' : Str) (i : Item) (c : Prop) [Decidable c] :
    get k (if c then [] else [(k', i)]) = if c then none else if k = k' then some i else none := by
  split <;> rfl

theorem get_value (k : Str) (v : Option Value) :
    get k (valueField v) = if k = "value".toList then v.map .val else none := by
  cases v with
  | none => exact (ite_self _).symm
  | some v => rfl

theorem get_common (k : Str) (bs : List Item) (key : Str) (event : Event) (value : Option Value) (texts : List Str) :
    get k (branchesField bs ++ commonFields key event value texts) =
      ((((if bs.isEmpty then none else if k = "branches".toList then some (.arr bs) else none).or
        (if event = .none then none else if k = "event".toList then some (.val (.str event.text)) else none)).or
        (if key = [] then none else if k = "key".toList then some (.val (.str key)) else none)).or
        (if k = "value".toList then value.map .val else none)).or
        (if texts.isEmpty then none else if k = "texts".toList then some (.arr (texts.map fun t => .val (.str t))) else none) := by
  simp only [branchesField, commonFields, get_append, get_if, get_value, Option.or_assoc]

theorem names_ne : "branches".toList ≠ "event".toList ∧ "branches".toList ≠ "key".toList ∧ "branches".toList ≠ "value".toList ∧
    "branches".toList ≠ "texts".toList ∧ "event".toList ≠ "key".toList ∧ "event".toList ≠ "value".toList ∧
    "event".toList ≠ "texts".toList ∧ "key".toList ≠ "value".toList ∧ "key".toList ≠ "texts".toList ∧ "value".toList ≠ "texts".toList := by
  decide +kernel

/-- The common fields of a map are read as they were written, whatever else the map has. -/
theorem createNode_common (t : Str) (bs : List Node) (key : Str) (event : Event) (value : Option Value) (texts : List Str)
    (own : List (Str × Item)) (ho : ∀ e ∈ own, e.1 ∉ commonNames) :
    createNode t (branchesField (bs.map .node) ++ commonFields key event value texts ++ own) =
      match createKind t (branchesField (bs.map .node) ++ commonFields key event value texts ++ own) with
      | .panic e => .panic e
      | .ok kind => .ok (.mk kind key event value texts bs) := by
  have hg : ∀ k ∈ commonNames, get k (branchesField (bs.map .node) ++ commonFields key event value texts ++ own) =
      get k (branchesField (bs.map .node) ++ commonFields key event value texts) := by
    intro k hk
    rw [get_append, get_absent (m := own) (fun e he h => ho e he (h ▸ hk)), Option.or_none]
  obtain ⟨n1, n2, n3, n4, n5, n6, n7, n8, n9, n10⟩ := names_ne
  have e1 : get "branches".toList (branchesField (bs.map .node) ++ commonFields key event value texts ++ own) =
      if (bs.map Item.node).isEmpty then none else some (.arr (bs.map .node)) := by
    rw [hg _ (by decide +kernel), get_common]
    simp only [n1, n2, n3, n4, ↓reduceIte, ite_self, Option.or_none]
  have e2 : get "event".toList (branchesField (bs.map .node) ++ commonFields key event value texts ++ own) =
      if event = .none then none else some (.val (.str event.text)) := by
    rw [hg _ (by decide +kernel), get_common]
    simp only [n1.symm, n5, n6, n7, ↓reduceIte, ite_self, Option.or_none, Option.none_or]
  have e3 : get "key".toList (branchesField (bs.map .node) ++ commonFields key event value texts ++ own) =
      if key = [] then none else some (.val (.str key)) := by
    rw [hg _ (by decide +kernel), get_common]
    simp only [n2.symm, n5.symm, n8, n9, ↓reduceIte, ite_self, Option.or_none, Option.none_or]
  have e4 : get "value".toList (branchesField (bs.map .node) ++ commonFields key event value texts ++ own) = value.map .val := by
    rw [hg _ (by decide +kernel), get_common]
    simp only [n3.symm, n6.symm, n8.symm, n10, ↓reduceIte, ite_self, Option.or_none, Option.none_or]
  have e5 : get "texts".toList (branchesField (bs.map .node) ++ commonFields key event value texts ++ own) =
      if texts.isEmpty then none else some (.arr (texts.map fun t => .val (.str t))) := by
    rw [hg _ (by decide +kernel), get_common]
    simp only [n4.symm, n7.symm, n9.symm, n10.symm, ↓reduceIte, ite_self, Option.or_none, Option.none_or]
  have ht : ∀ l : List Str, (l.map fun t => Item.val (.str t)).map toStr = l := by
    intro l
    induction l with
    | nil => rfl
    | cons a l ih => rw [List.map_cons, List.map_cons, ih]; rfl
  have g1 : getBranches (branchesField (bs.map .node) ++ commonFields key event value texts ++ own) = .ok bs := by
    unfold getBranches
    rw [e1]
    cases bs with
    | nil => rfl
    | cons b bs => exact nodes_map (b :: bs)
  have g2 : getEvent (branchesField (bs.map .node) ++ commonFields key event value texts ++ own) = event := by
    unfold getEvent
    rw [e2]
    split
    · next h => split at h <;> cases h; exact ofText_text event
    · next h =>
      by_cases he : event = .none
      · exact he.symm
      · rw [if_neg he] at h; exact absurd rfl (h _)
  have g3 : getStr "key".toList (branchesField (bs.map .node) ++ commonFields key event value texts ++ own) = key := by
    unfold getStr
    rw [e3]
    split
    · next h => split at h <;> cases h; rfl
    · next h =>
      by_cases he : key = []
      · exact he.symm
      · rw [if_neg he] at h; exact absurd rfl (h _)
  have g4 : getValue (branchesField (bs.map .node) ++ commonFields key event value texts ++ own) = value := by
    unfold getValue
    rw [e4]
    cases value <;> rfl
  have g5 : getTexts (branchesField (bs.map .node) ++ commonFields key event value texts ++ own) = texts := by
    unfold getTexts
    rw [e5]
    cases texts with
    | nil => rfl
    | cons a l => exact ht (a :: l)
  unfold createNode
  rw [g1, g2, g3, g4, g5]
  cases createKind t (branchesField (bs.map .node) ++ commonFields key event value texts ++ own) <;> rfl

/-- The fields of a kind are read as they were written. -/
theorem createKind_own (kind : NodeKind) (hs : Sound kind) (m : List (Str × Item)) (hm : ∀ k ∈ ownNames, get k m = get k (ownFields kind)) :
    createKind kind.typeName m = .ok kind := by
  have one : ∀ (k : Str) (i : Item), get k [(k, i)] = some i := fun k i => if_pos rfl
  cases kind with
  | root => rfl
  | invalidKey => rfl
  | lookup => rfl
  | dataProvider name =>
    have h := (hm "providerName".toList (by decide +kernel)).trans (one _ _)
    dsimp only [NodeKind.typeName]
    unfold createKind
    repeat rw [if_neg (by decide +kernel)]
    rw [if_pos rfl, getStr, h]
  | interpolate name =>
    have h := (hm "expression".toList (by decide +kernel)).trans (one _ _)
    dsimp only [NodeKind.typeName]
    unfold createKind
    repeat rw [if_neg (by decide +kernel)]
    rw [if_pos rfl, getStr, h]
  | mergeSource name =>
    have h := (hm "mergeSource".toList (by decide +kernel)).trans (one _ _)
    dsimp only [NodeKind.typeName]
    unfold createKind
    repeat rw [if_neg (by decide +kernel)]
    rw [if_pos rfl, getStr, h]
  | module name =>
    have h := (hm "moduleName".toList (by decide +kernel)).trans (one _ _)
    dsimp only [NodeKind.typeName]
    unfold createKind
    repeat rw [if_neg (by decide +kernel)]
    rw [if_pos rfl, getStr, h]
  | location l =>
    have h := (hm "location".toList (by decide +kernel)).trans (one _ _)
    dsimp only [NodeKind.typeName]
    unfold createKind
    repeat rw [if_neg (by decide +kernel)]
    rw [if_pos rfl, h]
  | segment p =>
    cases p <;>
    · have h := (hm "segment".toList (by decide +kernel)).trans (one _ _)
      dsimp only [NodeKind.typeName]
      unfold createKind
      repeat rw [if_neg (by decide +kernel)]
      rw [if_pos rfl, h]
      try rfl
  | subLookup k =>
    have h := (hm "subKey".toList (by decide +kernel)).trans (one _ _)
    dsimp only [NodeKind.typeName]
    unfold createKind
    repeat rw [if_neg (by decide +kernel)]
    rw [if_pos rfl, h]
    simp only
    rw [show newKey k.source = .ok k from hs]
  | merge s =>
    have h1 := hm "strategy".toList (by decide +kernel)
    have h2 := hm "options".toList (by decide +kernel)
    dsimp only [NodeKind.typeName]
    unfold createKind
    repeat rw [if_neg (by decide +kernel)]
    rw [if_pos rfl, h1, h2]
    cases s with
    | deep opts => cases opts <;> rfl
    | _ => rfl

/-- C64: creating a node from its own initialisation map yields the node: its kind with all that belongs to it, its key,
event, value, texts and branches. -/
theorem C64_node (n : Node) (hs : Sound n.kind) : createNode n.kind.typeName (initMap n) = .ok n := by
  obtain ⟨kind, key, event, value, texts, bs⟩ := n
  simp only [initMap, Node.kind, Node.key, Node.event, Node.value, Node.texts, Node.branches] at hs ⊢
  rw [createNode_common _ _ _ _ _ _ _ fun e he h => names_apart e.1 (ownFields_names kind e he) e.1 h rfl,
    createKind_own kind hs _ fun k hk => by
      rw [get_append, get_absent (m := branchesField _ ++ commonFields _ _ _ _)
        fun e he h => names_apart k hk e.1 (common_names _ _ _ _ _ e he) h.symm, Option.none_or]]

/-- C64: creating an explainer at rest from its own initialisation map yields the explainer. -/
theorem C64_explainer (x : ExplainerObj) : createExplainer x.initMap = .ok x := by
  obtain ⟨bs, key, event, value, texts, o, oo⟩ := x
  have hn : ∀ e ∈ (if o then [("options".toList, Item.val (.bool true))] else []) ++
      (if oo then [("onlyOptions".toList, Item.val (.bool true))] else []), e.1 ∉ commonNames := by
    intro e he
    rcases List.mem_append.mp he with he | he
    all_goals split at he <;> simp only [List.mem_singleton, List.not_mem_nil] at he; subst he; dsimp only; decide +kernel
  have hg : ∀ k, k ∉ commonNames → get k (ExplainerObj.mk bs key event value texts o oo).initMap =
      get k ((if o then [("options".toList, Item.val (.bool true))] else []) ++
      (if oo then [("onlyOptions".toList, Item.val (.bool true))] else [])) := by
    intro k hk
    simp only [ExplainerObj.initMap, initMap, Node.kind, Node.key, Node.event, Node.value, Node.texts, Node.branches, ownFields,
      List.append_nil]
    rw [List.append_assoc, get_append, get_absent (m := branchesField _ ++ commonFields _ _ _ _)
        fun e he (h : e.1 = k) => hk (h ▸ common_names _ _ _ _ _ e he), Option.none_or]
  have h1 : createNode "hiera.explainer".toList (ExplainerObj.mk bs key event value texts o oo).initMap =
      .ok (.mk .root key event value texts bs) := by
    simp only [ExplainerObj.initMap, initMap, Node.kind, Node.key, Node.event, Node.value, Node.texts, Node.branches, ownFields,
      List.append_nil]
    rw [List.append_assoc, createNode_common _ _ _ _ _ _ _ hn]
    rfl
  unfold createExplainer
  rw [h1]
  simp only [getBool]
  rw [hg _ (by decide +kernel), hg _ (by decide +kernel)]
  cases o <;> cases oo <;> rfl

/-! ### At any depth -/

theorem decode_append {fs fs' : List (Str × Data)} {m m' : List (Str × Item)} (h : Data.decodeFields fs = .ok m)
    (h' : Data.decodeFields fs' = .ok m') : Data.decodeFields (fs ++ fs') = .ok (m ++ m') := by
  induction fs generalizing m with
  | nil => cases h; exact h'
  | cons e fs ih =>
    obtain ⟨k, d⟩ := e
    simp only [Data.decodeFields, List.cons_append] at h ⊢
    cases hd : d.decode with
    | panic e => rw [hd] at h; exact nomatch h
    | ok i =>
      rw [hd] at h
      simp only at h ⊢
      cases hf : Data.decodeFields fs with
      | panic e => rw [hf] at h; exact nomatch h
      | ok x => rw [hf] at h; cases h; rw [ih hf]; rfl

theorem decode_loc (l : Loc) : l.toData.decode = .ok (.loc l) := by
  cases l <;> rfl

theorem decode_texts (ts : List Str) : Data.decodeList ((ts.map fun t => Item.val (.str t)).map Item.valData) =
    .ok (ts.map fun t => .val (.str t)) := by
  induction ts with
  | nil => rfl
  | cons t ts ih => simp only [List.map_cons, Item.valData, Data.decodeList, Data.decode, ih]

theorem decode_common (key : Str) (event : Event) (value : Option Value) (texts : List Str) :
    Data.decodeFields ((commonFields key event value texts).map fun e => (e.1, e.2.toData)) = .ok (commonFields key event value texts) := by
  simp only [commonFields, List.map_append]
  refine decode_append (decode_append (decode_append ?_ ?_) ?_) ?_
  · split <;> rfl
  · split <;> rfl
  · cases value <;> rfl
  · cases texts with
    | nil => rfl
    | cons t ts =>
      have := decode_texts (t :: ts)
      simp only [List.isEmpty_cons, Bool.false_eq_true, ↓reduceIte, List.map_cons, List.map_nil, Item.toData, Item.valData,
        Data.decodeFields, Data.decode] at this ⊢
      rw [this]

theorem decode_own (kind : NodeKind) :
    Data.decodeFields ((ownFields kind).map fun e => (e.1, e.2.toData)) = .ok (ownFields kind) := by
  cases kind with
  | segment p => cases p <;> rfl
  | location l => simp only [ownFields, List.map_cons, List.map_nil, Item.toData, Data.decodeFields, decode_loc]
  | merge s =>
    cases s with
    | deep opts => cases opts <;> rfl
    | _ => rfl
  | _ => rfl

theorem createLoc_kind (kind : NodeKind) (m : List (Str × Item)) : createLoc kind.typeName m = none := by
  cases kind <;> rfl

/-- C64: a tree of nodes that is turned into data, at every depth, and back is the same tree. -/
theorem C64_tree (n : Node) (hs : SoundNode n) : n.toData.decode = .ok (.node n) := by
  induction hs with
  | @mk kind key event value texts branches h1 hbs ih =>
    have hl : Data.decodeList (Node.listData branches) = .ok (branches.map .node) := by
      clear h1
      induction branches with
      | nil => rfl
      | cons b bs ihb =>
        simp only [Node.listData, Data.decodeList, ih b List.mem_cons_self, List.map_cons]
        rw [ihb (fun b hb => hbs b (List.mem_cons_of_mem _ hb)) fun b hb => ih b (List.mem_cons_of_mem _ hb)]
    have hb : Data.decodeFields (if branches.isEmpty then [] else [("branches".toList, .arr (Node.listData branches))]) =
        .ok (branchesField (branches.map .node)) := by
      cases branches with
      | nil => rfl
      | cons b bs =>
        simp only [List.isEmpty_cons, Bool.false_eq_true, ↓reduceIte, Data.decodeFields, Data.decode, hl]
        rfl
    have hf := decode_append hb (decode_append (decode_common key event value texts) (decode_own kind))
    rw [← List.map_append, ← List.append_assoc] at hf
    rw [Node.toData, Data.decode, hf]
    simp only [createLoc_kind]
    have := C64_node (.mk kind key event value texts branches) h1
    simp only [initMap, Node.kind, Node.key, Node.event, Node.value, Node.texts, Node.branches] at this
    rw [this]

/-- Not vacuous: a tree with locations, a merge with options, texts and a key with several segments. -/
example : SoundNode (.mk .lookup "a.b".toList .found (some (.int 3)) ["t".toList]
    [.mk (.merge (.deep [(.str "knockout_prefix".toList, .str "--".toList)])) [] .result (some (.arr [])) []
      [.mk (.location (.path "x.yaml".toList "/x.yaml".toList false)) [] .locationNotFound none [] [],
       .mk (.subLookup ⟨"a.b".toList, [.name "a".toList, .name "b".toList]⟩) [] .none none [] []]]) := by
  refine .mk trivial fun b hb => ?_
  rcases List.mem_singleton.mp hb with rfl
  refine .mk trivial fun b hb => ?_
  simp only [List.mem_cons, List.not_mem_nil, or_false] at hb
  rcases hb with rfl | rfl
  · exact .mk trivial fun b hb => nomatch hb
  · exact .mk (by unfold Sound Parsed; decide +kernel) fun b hb => nomatch hb

end Hiera
