/- A unary logic for the evaluator. A property of values that data have and that the operations on values preserve holds for
all values that the evaluator handles, the providers that it creates are complete, and the nodes of the explanation are of
the shapes that the rest of the code expects. -/
import Verif.Lemmas.Fuel
import Verif.Lemmas.Map
import Verif.Lemmas.Interp
import Verif.Lemmas.Config
import Verif.Spec.Sources

set_option autoImplicit false

set_option linter.unusedSectionVars false

namespace Hiera

open Value Spec

section
variable (V : Value → Prop)

/-- The options of an entry have the property. -/
def EntryOk (e : Entry) : Prop := ∀ o, e.options = some o → V (.map o)

/-- The options of a configuration have the property. -/
def CfgOk (c : Cfg) : Prop := EntryOk V c.defaults ∧ (∀ e ∈ c.hierarchy, EntryOk V e) ∧ ∀ e ∈ c.defaultHierarchy, EntryOk V e

end

/-- A location as resolving makes it. -/
def Concrete : Loc → Prop
  | .path _ _ _ => True
  | .uri _ _ => True
  | _ => False

/-- `V` holds for the data and is preserved by what the evaluator does with values. -/
structure Vals (E : Env) (V : Value → Prop) : Prop extends Sources E V where
  null : V .null
  str : ∀ s, V (.str s)
  arr : ∀ {es}, (∀ x ∈ es, V x) → V (.arr es)
  arr_mem : ∀ {es}, V (.arr es) → ∀ x ∈ es, V x
  map_mem : ∀ {es}, V (.map es) → ∀ e ∈ es, V e.1 ∧ V e.2
  nil : V (.map [])
  put : ∀ {es k v}, V (.map es) → V k → V v → V (.map (Entries.put es k v))
  merge : ∀ (s : Strategy) {a b}, V a → V b → V (s.merge a b)
  convert : ∀ (s : Strategy) {a}, V a → V (s.convertValue a)
  single : ∀ (s : Strategy) {a}, V a → V (s.single a)
  bury : ∀ (k : Key) {x}, V x → V (k.bury x)

section
variable {E : Env} {V : Value → Prop}

theorem initialize_ok {C : CfgEnv} {name : Str} {es : Entries} (hes : ∀ e ∈ es, V e.1 ∧ V e.2) {e e' : Entry}
    (he : EntryOk V e) (hr : Entry.initialize C name e es = .ok e') : EntryOk V e' := by
  induction es generalizing e with
  | nil => cases hr; exact he
  | cons kv es ih =>
    obtain ⟨k, v⟩ := kv
    have ih' := @ih (fun x hx => hes x (List.mem_cons_of_mem _ hx))
    have hv := (hes _ List.mem_cons_self).2
    unfold Entry.initialize at hr
    dsimp only at hr
    split at hr
    · split at hr
      · cases hc : checkOptionKeys C name ‹_› with
        | panic p => rw [hc] at hr; cases hr
        | ok u =>
          rw [hc] at hr
          exact ih' (by intro o ho; cases ho; exact hv) hr
      · cases hr
    · split at hr
      · split at hr
        · cases hr
        · exact ih' (by intro o ho; exact he o ho) hr
      · exact ih' he hr

theorem Vals.entryLoop {C : CfgEnv} {name : Str} {es : Entries} {e e' : Entry}
    (he : EntryOk V e) (hr : createEntryLoop C name e es = .ok e') : EntryOk V e' := by
  induction es generalizing e with
  | nil => cases hr; exact he
  | cons kv es ih =>
    obtain ⟨k, v⟩ := kv
    unfold createEntryLoop at hr
    dsimp only at hr
    split at hr
    · exact ih (by intro o ho; exact he o ho) hr
    split at hr
    · exact ih (by intro o ho; exact he o ho) hr
    split at hr
    · exact ih (by intro o ho; exact he o ho) hr
    split at hr
    · split at hr
      · cases hr
      · cases hc : createLocations C (C.toStr k) v with
        | panic p => rw [hc] at hr; cases hr
        | ok ls =>
          rw [hc] at hr
          exact ih (e := { e with locations := some ls }) (by intro o ho; exact he o ho) hr
    · exact ih he hr

theorem Vals.createEntry (h : Vals E V) {C : CfgEnv} {root name : Str} {es : Entries} (hes : V (.map es)) {e : Entry}
    (hr : createEntry C root name es = .ok e) : EntryOk V e := by
  unfold Hiera.createEntry at hr
  cases hc : Entry.initialize C name { root := root, name := name } es with
  | panic p => rw [hc] at hr; cases hr
  | ok e1 =>
    rw [hc] at hr
    exact Vals.entryLoop (initialize_ok (h.map_mem hes) (e := { root := root, name := name }) (fun o (ho : none = some o) => nomatch ho) hc) hr

theorem Vals.hierarchyLoop (h : Vals E V) {C : CfgEnv} {root : Str} {vs : List Value} (hvs : ∀ v ∈ vs, V v) {seen : List Str}
    {es : List Entry} (hr : createHierarchyLoop C root seen vs = .ok es) : ∀ e ∈ es, EntryOk V e := by
  induction vs generalizing seen es with
  | nil => cases hr; exact fun e he => nomatch he
  | cons v vs ih =>
    cases v with
    | map hh =>
      simp only [createHierarchyLoop] at hr
      replace hr : ∃ name, (if name ∈ seen then .panic (.duplicateName name) else (Hiera.createEntry C root name hh).bind fun e =>
          (createHierarchyLoop C root (name :: seen) vs).bind fun es => .ok (e :: es)) = Res.ok es := ⟨_, hr⟩
      obtain ⟨name, hr⟩ := hr
      split at hr
      · cases hr
      · cases hc : Hiera.createEntry C root name hh with
        | panic p => rw [hc] at hr; cases hr
        | ok e1 =>
          rw [hc] at hr
          simp only [Res.bind] at hr
          cases hl : createHierarchyLoop C root (name :: seen) vs with
          | panic p => rw [hl] at hr; cases hr
          | ok es1 =>
            rw [hl] at hr
            cases hr
            intro e he
            rcases List.mem_cons.mp he with rfl | he
            · exact h.createEntry (hvs _ List.mem_cons_self) hc
            · exact ih (fun x hx => hvs x (List.mem_cons_of_mem _ hx)) hl e he
    | _ => simp only [createHierarchyLoop] at hr; cases hr

theorem Vals.hierarchy (h : Vals E V) {C : CfgEnv} {root : Str} {v : Value} (hv : V v) {es : List Entry}
    (hr : createHierarchy C root v = .ok es) : ∀ e ∈ es, EntryOk V e := by
  cases v with
  | arr vs => exact h.hierarchyLoop (h.arr_mem hv) hr
  | _ => simp only [createHierarchy] at hr; cases hr

theorem defaultHierarchy_ok (root : Str) : ∀ e ∈ makeDefaultHierarchy root, EntryOk V e := by
  intro e he o ho
  simp only [makeDefaultHierarchy, List.mem_cons, List.not_mem_nil, or_false] at he
  rcases he with rfl | rfl <;> cases ho

theorem Vals.getS_mem (h : Vals E V) {es : Entries} (hes : V (.map es)) {k : Str} {v : Value} (hg : Entries.getS es k = some v) : V v := by
  unfold Entries.getS Entries.get at hg
  obtain ⟨x, hx, rfl⟩ := Option.map_eq_some_iff.mp hg
  exact (h.map_mem hes x (List.mem_of_find?_eq_some hx)).2

/-- The options in a configuration are those of the file. -/
theorem Vals.cfg (h : Vals E V) (p : Str) (c : Cfg) (hr : newCfg E.cfg p (E.readYaml p) = .ok c) : CfgOk V c := by
  cases hy : E.readYaml p with
  | missing =>
    rw [hy] at hr
    cases hr
    exact ⟨(fun o (ho : none = some o) => nomatch ho), defaultHierarchy_ok _, fun _ he => nomatch he⟩
  | err e => rw [hy] at hr; cases hr
  | value v =>
    have hv := h.yaml p v hy
    rw [hy] at hr
    cases v with
    | map es =>
      simp only [newCfg] at hr
      split at hr
      · unfold createConfig at hr
        dsimp only at hr
        obtain ⟨d, hd, hr⟩ := Res.bind_ok_iff.mp hr
        obtain ⟨hi, hhi, hr⟩ := Res.bind_ok_iff.mp hr
        obtain ⟨dh, hdh, hr⟩ := Res.bind_ok_iff.mp hr
        cases hr
        refine ⟨?_, ?_, ?_⟩
        · split at hd
          · exact h.createEntry (h.getS_mem hv ‹_›) hd
          · cases hd
          · cases hd; exact fun o (ho : none = some o) => nomatch ho
        · split at hhi
          · exact h.hierarchy (h.getS_mem hv ‹_›) hhi
          · cases hhi; exact defaultHierarchy_ok _
        · split at hdh
          · exact h.hierarchy (h.getS_mem hv ‹_›) hdh
          · cases hdh; exact fun _ he => nomatch he
      · cases hr
    | _ => cases hr

end

section
variable (V : Value → Prop)

/-- A resolved entry. -/
structure Complete (e : Entry) : Prop where
  options : EntryOk V e
  function : e.function ≠ none
  locations : ∀ ls, e.locations = some ls → ∀ l ∈ ls, Concrete l

/-- The part of the state that a copy of the invocation has for itself. -/
structure IcOk (ic : Ic) : Prop where
  scope : ∀ k, OptV V (ic.scope.get k)
  luOpts : ∀ m, ic.luOpts = some m → V (.map m)

/-- A resolved configuration. -/
structure RcOk (rc : RCfg) : Prop where
  providers : ∀ p ∈ rc.providers, Complete V p.entry
  defaults : ∀ p ∈ rc.defaultProviders, Complete V p.entry
  options : ∀ m, rc.lookupOptions = some m → V (.map m)

/-- The memory. -/
structure MemOk (v : View) : Prop where
  configs : ∀ x ∈ v.configs, RcOk V x.2
  hashes : ∀ x ∈ v.hashes, V (.map x.2)
  parsed : ∀ x ∈ v.parsed, CfgOk V x.2
  cache : ∀ x ∈ v.cache, V x.2

/-- The view. -/
structure ViewOk (v : View) : Prop where
  ic : IcOk V v.ic
  mem : MemOk V v

end

/-- What the fields of a kind of node have to be. -/
def KindOk : NodeKind → Prop
  | .subLookup k => newKey k.source = .ok k
  | .location l => Concrete l
  | _ => True

/-- Kinds of nodes that never have branches. -/
def Leaf : NodeKind → Prop
  | .invalidKey => True
  | .segment _ => True
  | .mergeSource _ => True
  | _ => False

/-- Events that come with a value. -/
def Event.valued : Event → Bool
  | .found => true
  | .foundInDefaults => true
  | .foundInOverrides => true
  | .result => true
  | _ => false

/-- A node as the evaluator makes them. -/
inductive GoodNode (V : Value → Prop) : Node → Prop
  | mk {kind : NodeKind} {key : Str} {event : Event} {value : Option Value} {texts : List Str} {branches : List Node} :
    KindOk kind → OptV V value → (event.valued = true → value ≠ none) →
    (Leaf kind ∨ event = .moduleNotFound → branches = []) →
    (∀ b ∈ branches, GoodNode V b) → GoodNode V (.mk kind key event value texts branches)

/-- A node to which branches may be added. -/
def OpenNode (n : Node) : Prop := ¬ Leaf n.kind ∧ n.event ≠ .moduleNotFound

theorem GoodNode.new {V : Value → Prop} {k : NodeKind} (h : KindOk k) (key : Str) : GoodNode V (.new k key) :=
  .mk h (fun _ h => nomatch h) (fun h => nomatch h) (fun _ => rfl) (fun _ h => nomatch h)

theorem GoodNode.branch {V : Value → Prop} {n b : Node} (h : GoodNode V n) (ho : OpenNode n) (hb : GoodNode V b) : GoodNode V (n.appendBranch b) := by
  cases h with
  | mk h1 h2 h3 h4 h5 =>
    refine .mk h1 h2 h3 (fun h => ?_) (fun x hx => ?_)
    · exact absurd h (not_or.mpr ⟨ho.1, ho.2⟩)
    · rcases List.mem_append.mp hx with hx | hx
      · exact h5 x hx
      · rw [List.mem_singleton.mp hx]; exact hb

/-- A change of a node that keeps it good and open. -/
def Fine (V : Value → Prop) (f : Node → Node) : Prop :=
  ∀ n, GoodNode V n → OpenNode n → GoodNode V (f n) ∧ (f n).kind = n.kind ∧ OpenNode (f n)

section
variable {V : Value → Prop}

theorem fine_text (t : Str) : Fine V (.appendText t) := by
  intro n h ho
  cases h with
  | mk h1 h2 h3 h4 h5 => exact ⟨.mk h1 h2 h3 h4 h5, rfl, ho⟩

theorem fine_found (k : Str) {x : Value} (hx : V x) : Fine V (.found k x) := by
  intro n h ho
  cases h with
  | mk h1 h2 h3 h4 h5 =>
    exact ⟨.mk h1 (fun y hy => by cases hy; exact hx) (fun _ => nofun) (fun h => absurd h (not_or.mpr ⟨ho.1, nofun⟩)) h5, rfl,
      ho.1, nofun⟩

theorem fine_result {x : Value} (hx : V x) : Fine V (.result x) := by
  intro n h ho
  cases h with
  | mk h1 h2 h3 h4 h5 =>
    exact ⟨.mk h1 (fun y hy => by cases hy; exact hx) (fun _ => nofun) (fun h => absurd h (not_or.mpr ⟨ho.1, nofun⟩)) h5, rfl,
      ho.1, nofun⟩

theorem fine_notFound (k : Str) : Fine V (.notFound k) := by
  intro n h ho
  cases h with
  | mk h1 h2 h3 h4 h5 =>
    exact ⟨.mk h1 h2 (fun h => nomatch h) (fun h => absurd h (not_or.mpr ⟨ho.1, nofun⟩)) h5, rfl, ho.1, nofun⟩

theorem fine_locationNotFound : Fine V .locationNotFound := by
  intro n h ho
  cases h with
  | mk h1 h2 h3 h4 h5 =>
    exact ⟨.mk h1 h2 (fun h => nomatch h) (fun h => absurd h (not_or.mpr ⟨ho.1, nofun⟩)) h5, rfl, ho.1, nofun⟩

theorem fine_mergeSource (t : Str) : Fine V (.mergeSource t) := by
  intro n h ho
  exact ⟨h.branch ho (GoodNode.new (k := .mergeSource t) trivial _), rfl, ho⟩

/-- A computation keeps the invariants, and its result has the property `Q`. -/
def Maintains (V : Value → Prop) {α : Type} (Q : α → Prop) (m : M α) : Prop :=
  ∀ s cur ups, ViewOk V s.v → s.tree = .at cur ups → GoodNode V cur → OpenNode cur → ∀ r t, m s = some (r, t) →
    ViewOk V t.v ∧ (∃ cur', t.tree = .at cur' ups ∧ GoodNode V cur' ∧ cur'.kind = cur.kind ∧ OpenNode cur') ∧ ∀ a, r = .ok a → Q a

variable {α β : Type} {Q : α → Prop} {P : β → Prop}

theorem Maintains.pure {a : α} (h : Q a) : Maintains V Q (pure a) := by
  intro s cur ups hv ht hg ho r t e
  cases e
  exact ⟨hv, ⟨cur, ht, hg, rfl, ho⟩, fun b hb => by cases hb; exact h⟩

theorem Maintains.panic (e : Err) : Maintains V Q (Hiera.panic e : M α) := by
  intro s cur ups hv ht hg ho r t e
  cases e
  exact ⟨hv, ⟨cur, ht, hg, rfl, ho⟩, fun b hb => nomatch hb⟩

theorem Maintains.hang : Maintains V Q (Hiera.hang : M α) := fun _ _ _ _ _ _ _ _ _ e => nomatch e

theorem Maintains.lift {r : Res α} (h : ∀ a, r = .ok a → Q a) : Maintains V Q (Hiera.lift r) := by
  intro s cur ups hv ht hg ho r' t e
  cases e
  exact ⟨hv, ⟨cur, ht, hg, rfl, ho⟩, h⟩

theorem Maintains.bind {m : M α} {f : α → M β} (hm : Maintains V Q m) (hf : ∀ a, Q a → Maintains V P (f a)) : Maintains V P (m >>= f) := by
  intro s cur ups hv ht hg ho r t e
  rw [bind_def] at e
  cases hms : m s with
  | none => rw [hms] at e; cases e
  | some x =>
    obtain ⟨a | e', u⟩ := x
    · rw [hms] at e
      obtain ⟨h1, ⟨c, h2, h3, h4, h5⟩, h6⟩ := hm s cur ups hv ht hg ho _ _ hms
      obtain ⟨g1, ⟨d, g2, g3, g4, g5⟩, g6⟩ := hf a (h6 a rfl) u c ups h1 h2 h3 h5 _ _ e
      exact ⟨g1, ⟨d, g2, g3, g4.trans h4, g5⟩, g6⟩
    · rw [hms] at e
      cases e
      obtain ⟨h1, h2, _⟩ := hm s cur ups hv ht hg ho _ _ hms
      exact ⟨h1, h2, fun a h => nomatch h⟩

theorem Maintains.weaken {m : M α} {Q' : α → Prop} (hm : Maintains V Q m) (h : ∀ a, Q a → Q' a) : Maintains V Q' m := by
  intro s cur ups hv ht hg ho r t e
  obtain ⟨h1, h2, h3⟩ := hm s cur ups hv ht hg ho r t e
  exact ⟨h1, h2, fun a ha => h a (h3 a ha)⟩

theorem Maintains.view : Maintains V (ViewOk V) Hiera.view := by
  intro s cur ups hv ht hg ho r t e
  cases e
  exact ⟨hv, ⟨cur, ht, hg, rfl, ho⟩, fun b hb => by cases hb; exact hv⟩

theorem Maintains.update {f : View → View} (hf : ∀ v, ViewOk V v → ViewOk V (f v)) : Maintains V (fun _ => True) (Hiera.update f) := by
  intro s cur ups hv ht hg ho r t e
  cases e
  exact ⟨hf _ hv, ⟨cur, ht, hg, rfl, ho⟩, fun _ _ => trivial⟩

theorem Maintains.report {f : Node → Node} (hf : Fine V f) : Maintains V (fun _ => True) (Hiera.report f) := by
  intro s cur ups hv ht hg ho r t e
  unfold Hiera.report at e
  rw [ht] at e
  simp only [Tree.accept] at e
  split at e
  · cases e; exact ⟨hv, ⟨cur, ht, hg, rfl, ho⟩, fun _ _ => trivial⟩
  · cases e
    obtain ⟨h1, h2, h3⟩ := hf cur hg ho
    exact ⟨hv, ⟨_, rfl, h1, h2, h3⟩, fun _ _ => trivial⟩

/-- Pushing a node: what matters is what the body does with it. -/
theorem Maintains.withNode' {m : M α} {n : Node}
    (hm : ∀ s ups, ViewOk V s.v → s.tree = .at n ups → ∀ r t, m s = some (r, t) →
      ViewOk V t.v ∧ (∃ c, t.tree = .at c ups ∧ GoodNode V c) ∧ ∀ a, r = .ok a → Q a)
    (h0 : ∀ s cur ups, s.on.isNone = true → ViewOk V s.v → s.tree = .at cur ups → GoodNode V cur → OpenNode cur → ∀ r t, m s = some (r, t) →
      ViewOk V t.v ∧ (∃ cur', t.tree = .at cur' ups ∧ GoodNode V cur' ∧ cur'.kind = cur.kind ∧ OpenNode cur') ∧ ∀ a, r = .ok a → Q a) :
    Maintains V Q (Hiera.withNode n m) := by
  intro s cur ups hv ht hg ho r t e
  unfold Hiera.withNode at e
  split at e
  · next hon => exact h0 s cur ups hon hv ht hg ho r t e
  · rw [ht] at e
    simp only [Tree.push] at e
    cases hms : m { s with tree := .at n (cur :: ups) } with
    | none => rw [hms] at e; cases e
    | some x =>
      obtain ⟨r', u⟩ := x
      rw [hms] at e
      cases e
      obtain ⟨h1, ⟨c, h2, h3⟩, h4⟩ := hm { s with tree := .at n (cur :: ups) } _ hv rfl _ _ hms
      refine ⟨h1, ⟨cur.appendBranch c, ?_, hg.branch ho h3, rfl, ho⟩, h4⟩
      simp only [h2, Tree.pop]

theorem Maintains.withNode {m : M α} {n : Node} (hn : GoodNode V n) (ho : OpenNode n) (hm : Maintains V Q m) :
    Maintains V Q (Hiera.withNode n m) :=
  Maintains.withNode' (fun s ups hv ht r t e => by
    obtain ⟨h1, ⟨c, h2, h3, _⟩, h4⟩ := hm s n ups hv ht hn ho r t e
    exact ⟨h1, ⟨c, h2, h3⟩, h4⟩) (fun s cur ups _ => hm s cur ups)

theorem Maintains.withCopy {m : M α} {f : Ic → Ic} {g : Option ExplOpts → Option ExplOpts} (hf : ∀ ic, IcOk V ic → IcOk V (f ic))
    (hm : Maintains V Q m) : Maintains V Q (Hiera.withCopy f g m) := by
  intro s cur ups hv ht hg ho r t e
  unfold Hiera.withCopy at e
  cases hms : m { s with v := { s.v with ic := f s.v.ic }, on := g s.on } with
  | none => rw [hms] at e; cases e
  | some x =>
    rw [hms] at e
    cases e
    obtain ⟨h1, h2, h3⟩ := hm { s with v := { s.v with ic := f s.v.ic }, on := g s.on } cur ups
      ⟨hf _ hv.ic, ⟨hv.mem.configs, hv.mem.hashes, hv.mem.parsed, hv.mem.cache⟩⟩ ht hg ho _ _ hms
    exact ⟨⟨hv.ic, ⟨h1.mem.configs, h1.mem.hashes, h1.mem.parsed, h1.mem.cache⟩⟩, h2, h3⟩

theorem Maintains.forConfig {m : M α} (hm : Maintains V Q m) : Maintains V Q (Hiera.forConfig m) := by
  intro s cur ups hv ht hg ho r t e
  unfold Hiera.forConfig at e
  split at e
  · exact hm s cur ups hv ht hg ho r t e
  · exact Maintains.withCopy (fun _ h => h) hm s cur ups hv ht hg ho r t e

theorem Maintains.forData {m : M α} (hm : Maintains V Q m) : Maintains V Q (Hiera.forData m) := by
  unfold Hiera.forData
  refine Maintains.bind Maintains.view (fun v _ => ?_)
  split
  · exact hm
  · exact Maintains.withCopy (fun _ h => ⟨h.scope, h.luOpts⟩) hm

theorem Maintains.forLookupOptions {m : M α} (hm : Maintains V Q m) : Maintains V Q (Hiera.forLookupOptions m) := by
  unfold Hiera.forLookupOptions
  refine Maintains.bind Maintains.view (fun v _ => ?_)
  split
  · exact hm
  · exact Maintains.withCopy (fun _ h => ⟨h.scope, h.luOpts⟩) hm

theorem ViewOk.setIc {v : View} (h : ViewOk V v) {ic : Ic} (hi : IcOk V ic) : ViewOk V { v with ic := ic } :=
  ⟨hi, ⟨h.mem.configs, h.mem.hashes, h.mem.parsed, h.mem.cache⟩⟩

theorem Maintains.doWithScope {m : M α} {sc : Scope} (hs : ∀ k, OptV V (sc.get k)) (hm : Maintains V Q m) :
    Maintains V Q (Hiera.doWithScope sc m) := by
  unfold Hiera.doWithScope
  refine Maintains.bind Maintains.view (fun v hv => Maintains.bind (Maintains.update (fun w hw => hw.setIc ⟨hs, hw.ic.luOpts⟩)) (fun _ _ =>
    Maintains.bind hm (fun a ha => Maintains.bind (Maintains.update (fun w hw => hw.setIc ⟨hv.ic.scope, hw.ic.luOpts⟩)) (fun _ _ => Maintains.pure ha))))

theorem Maintains.doRedacted {m : M α} (hm : Maintains V Q m) : Maintains V Q (Hiera.doRedacted m) := by
  intro s cur ups hv ht hg ho r t e
  unfold Hiera.doRedacted at e
  split at e
  · exact hm s cur ups hv ht hg ho r t e
  · cases hms : m { s with v := { s.v with ic := { s.v.ic with redacted := true } } } with
    | none => rw [hms] at e; cases e
    | some x =>
      rw [hms] at e
      cases e
      obtain ⟨h1, h2, h3⟩ := hm { s with v := { s.v with ic := { s.v.ic with redacted := true } } } cur ups
        (hv.setIc ⟨hv.ic.scope, hv.ic.luOpts⟩) ht hg ho _ _ hms
      exact ⟨h1.setIc ⟨h1.ic.scope, h1.ic.luOpts⟩, h2, h3⟩

theorem Maintains.emit (e : Ev) : Maintains V (fun _ => True) (Hiera.emit e) :=
  Maintains.update (fun _ h => ⟨h.ic, ⟨h.mem.configs, h.mem.hashes, h.mem.parsed, h.mem.cache⟩⟩)

theorem Spec.OptV.none : OptV V none := fun _ h => nomatch h
theorem Spec.OptV.some {x : Value} (h : V x) : OptV V (some x) := fun _ e => by cases e; exact h
theorem Spec.OptV.get {x : Value} (h : OptV V (.some x)) : V x := h x rfl
end

/-- The recursive calls keep the invariants. -/
structure RecMaintains (V : Value → Prop) (rec : Rec) : Prop where
  lookup : ∀ k o, newKey k.source = .ok k → V (.map o) → Maintains V (OptV V) (rec.lookup k o)
  interp : ∀ v a, V v → Maintains V (fun r => OptV V r.1) (rec.interp v a)
  lk : ∀ f o k, LkOk V f → V (.map o) → Maintains V (OptV V) (rec.lk f o k)

theorem newKey_parsed {x : Str} {k : Key} (h : newKey x = .ok k) : newKey k.source = .ok k := by
  have : k.source = x := by
    unfold newKey at h
    split at h <;> cases h
    rfl
  rw [this, h]

section
variable {E : Env} {V : Value → Prop} (h : Vals E V)
include h

theorem Vals.get {es : Entries} (hm : V (.map es)) (k : Value) : OptV V (Entries.get es k) := by
  intro x hx
  obtain ⟨e, he, _, rfl⟩ := Entries.get_mem hx
  exact (h.map_mem hm e he).2

theorem Vals.getS {es : Entries} (hm : V (.map es)) (k : Str) : OptV V (Entries.getS es k) := h.get hm _

theorem Vals.putAll {es fs : Entries} (hm : V (.map es)) (hf : ∀ e ∈ fs, V e.1 ∧ V e.2) : V (.map (Entries.putAll es fs)) := by
  unfold Entries.putAll
  induction fs generalizing es with
  | nil => exact hm
  | cons e fs ih =>
    exact ih (h.put hm (hf e List.mem_cons_self).1 (hf e List.mem_cons_self).2) (fun x hx => hf x (List.mem_cons_of_mem _ hx))

theorem Vals.segment {p : Part} {v w : Value} (hv : V v) (hd : digSegment p v = some w) : V w := by
  unfold digSegment at hd
  split at hd
  · split at hd
    · split at hd
      · exact h.arr_mem hv _ (List.mem_of_getElem? hd)
      · cases hd
    · cases hd
  · exact h.get hv _ _ hd
  · cases hd

/-- A segment is a leaf. -/
theorem Maintains.digNode (p : Part) {v : Option Value} (hv : OptV V v) :
    Maintains V (OptV V) (Hiera.withNode (.new (.segment p)) (digSeg p v)) := by
  have hw : OptV V (v.bind (digSegment p)) := by
    intro x hx
    cases v with
    | none => cases hx
    | some y => exact h.segment (hv y rfl) hx
  refine Maintains.withNode' ?_ ?_
  · intro s ups hs ht r t e
    unfold digSeg at e
    cases hx : v.bind (digSegment p) with
    | none =>
      rw [hx] at e
      simp only [bind_def, Hiera.report, ht, Tree.accept] at e
      by_cases hon : s.on.isNone = true
      · rw [if_pos hon] at e; cases e
        exact ⟨hs, ⟨_, ht, GoodNode.new (by trivial) _⟩, fun a ha => by cases ha; exact OptV.none⟩
      · rw [if_neg hon] at e; cases e
        exact ⟨hs, ⟨_, rfl, .mk trivial OptV.none (fun h => nomatch h) (fun _ => rfl) (fun _ h => nomatch h)⟩,
          fun a ha => by cases ha; exact OptV.none⟩
    | some w =>
      rw [hx] at e
      have hw : V w := hw w hx
      simp only [bind_def, Hiera.report, ht, Tree.accept] at e
      by_cases hon : s.on.isNone = true
      · rw [if_pos hon] at e; cases e
        exact ⟨hs, ⟨_, ht, GoodNode.new (by trivial) _⟩, fun a ha => by cases ha; exact OptV.some hw⟩
      · rw [if_neg hon] at e; cases e
        exact ⟨hs, ⟨_, rfl, .mk trivial (OptV.some hw) (fun _ => nofun) (fun _ => rfl) (fun _ h => nomatch h)⟩,
          fun a ha => by cases ha; exact OptV.some hw⟩
  · refine fun s cur ups _ => (?_ : Maintains V (OptV V) (digSeg p v)) s cur ups
    unfold digSeg
    cases hx : v.bind (digSegment p) with
    | none => exact Maintains.bind (Maintains.report (fine_notFound _)) (fun _ _ => Maintains.pure OptV.none)
    | some w => exact Maintains.bind (Maintains.report (fine_found _ (hw w hx))) (fun _ _ => Maintains.pure (OptV.some (hw w hx)))

theorem Maintains.digLoop (ps : List Part) {v : Option Value} (hv : OptV V v) : Maintains V (OptV V) (digLoop ps v) := by
  induction ps generalizing v with
  | nil => exact Maintains.pure hv
  | cons p ps ih =>
    refine Maintains.bind (Maintains.digNode h p hv) (fun r hr => ?_)
    cases r with
    | none => exact Maintains.pure OptV.none
    | some w => exact ih hr

omit h in
theorem open_new {k : NodeKind} (hk : ¬ Leaf k) (key : Str) : OpenNode (.new k key) := ⟨hk, nofun⟩

theorem Maintains.dig {k : Key} (hk : newKey k.source = .ok k) {v : Option Value} (hv : OptV V v) : Maintains V (OptV V) (dig k v) := by
  unfold Hiera.dig
  split
  · exact Maintains.pure hv
  · exact Maintains.withNode (GoodNode.new (by exact hk) _) (open_new id _) (Maintains.digLoop h _ hv)

variable {rec : Rec} (hr : RecMaintains V rec)
include hr

theorem Maintains.interpInScope (x : Str) (a : Bool) : Maintains V (OptV V) (interpInScope rec x a) := by
  unfold Hiera.interpInScope
  refine Maintains.bind (Maintains.lift (Q := fun k => newKey k.source = .ok k) (fun k hk => newKey_parsed hk)) (fun k hk =>
    Maintains.bind Maintains.view (fun v hv => ?_))
  cases hx : v.ic.scope.get k.root with
  | none => exact Maintains.pure OptV.none
  | some x => exact Maintains.bind (hr.interp x a (hv.ic.scope _ _ hx)) (fun r hr => Maintains.dig h hk hr)

/-- What the closure of `InterpolateString` keeps. -/
def IplOk (V : Value → Prop) (st : IplState) : Prop := OptV V st.result

theorem Maintains.interpExpr (s : Str) (a : Bool) (e : Str) {st : IplState} (hst : IplOk V st) :
    Maintains V (IplOk V) (interpExpr E rec s a e st) := by
  unfold Hiera.interpExpr
  simp only
  split
  · exact Maintains.pure hst
  · refine Maintains.bind (Maintains.lift (Q := fun _ => True) (fun _ _ => trivial)) (fun md _ => ?_)
    split
    · exact Maintains.panic _
    · have look : Maintains V (IplOk V)
          (do let k ← Hiera.lift (newKey md.2)
              let v ← rec.lookup k []
              if md.1.isAlias = true then Pure.pure { st with result := v, method := md.1 }
              else Pure.pure { st with out := st.out ++ E.textOf v, method := md.1 }) := by
        refine Maintains.bind (Maintains.lift (Q := fun k => newKey k.source = .ok k) (fun k hk => newKey_parsed hk)) (fun k hk =>
          Maintains.bind (hr.lookup k [] hk h.nil) (fun v hv => ?_))
        split
        · exact Maintains.pure hv
        · exact Maintains.pure hst
      split
      · exact Maintains.pure hst
      · exact Maintains.bind (Maintains.interpInScope h hr _ a) (fun _ _ => Maintains.pure hst)
      · exact look

theorem Maintains.interpToks (s : Str) (a : Bool) (ts : List Tok) {st : IplState} (hst : IplOk V st) :
    Maintains V (IplOk V) (interpToks E rec s a ts st) := by
  induction ts generalizing st with
  | nil => exact Maintains.pure hst
  | cons t ts ih =>
    cases t with
    | chr c => exact ih hst
    | expr e => exact Maintains.bind (Maintains.interpExpr h hr _ _ _ hst) (fun st' h' => ih h')

theorem Maintains.interpStr (s : Str) (a : Bool) : Maintains V (fun r => OptV V r.1) (interpStr E rec s a) := by
  unfold Hiera.interpStr
  split
  · refine Maintains.bind (Q := OptV V) (Maintains.withNode (GoodNode.new (by trivial) _) (open_new id _)
      (Maintains.bind (Maintains.interpToks h hr _ _ _ (fun _ h => nomatch h)) (fun st hst => Maintains.pure ?_))) (fun _ hr => Maintains.pure hr)
    unfold IplState.finish
    split
    · exact OptV.some (h.str _)
    · exact hst
  · exact Maintains.pure (OptV.some (h.str _))

omit hr in
theorem Vals.getD {r : Option Value} (hr : OptV V r) : V (r.getD .null) := by
  cases r with
  | none => exact h.null
  | some x => exact hr x rfl

mutual
theorem Maintains.interp (a : Bool) (v : Value) (hv : V v) : Maintains V (fun r => OptV V r.1) (interp E rec a v) := by
  match v with
  | .str s => simp only [Hiera.interp]; exact Maintains.interpStr h hr s a
  | .arr es =>
    simp only [Hiera.interp]
    refine Maintains.bind (Maintains.interpList a es (h.arr_mem hv)) (fun r hr' => ?_)
    split
    · exact Maintains.pure (OptV.some (h.arr hr'))
    · exact Maintains.pure (OptV.some hv)
  | .map es =>
    simp only [Hiera.interp]
    refine Maintains.bind (Maintains.interpMap a [] es h.nil (h.map_mem hv)) (fun r hr' => ?_)
    split
    · exact Maintains.pure (OptV.some hr')
    · exact Maintains.pure (OptV.some hv)
  | .null => simp only [Hiera.interp]; exact Maintains.pure (OptV.some hv)
  | .bool _ => simp only [Hiera.interp]; exact Maintains.pure (OptV.some hv)
  | .int _ => simp only [Hiera.interp]; exact Maintains.pure (OptV.some hv)
  | .sensitive _ => simp only [Hiera.interp]; exact Maintains.pure (OptV.some hv)
  | .opaque _ => simp only [Hiera.interp]; exact Maintains.pure (OptV.some hv)
theorem Maintains.interpList (a : Bool) (vs : List Value) (hvs : ∀ x ∈ vs, V x) :
    Maintains V (fun r => ∀ x ∈ r.1, V x) (interpList E rec a vs) := by
  match vs with
  | [] => simp only [Hiera.interpList]; exact Maintains.pure (fun _ h => nomatch h)
  | v :: vs =>
    simp only [Hiera.interpList]
    refine Maintains.bind (Maintains.interp a v (hvs v List.mem_cons_self)) (fun r hr' =>
      Maintains.bind (Maintains.interpList a vs (fun x hx => hvs x (List.mem_cons_of_mem _ hx))) (fun rs hrs => Maintains.pure ?_))
    intro x hx
    rcases List.mem_cons.mp hx with rfl | hx
    · split
      · exact h.getD hr'
      · exact hvs v List.mem_cons_self
    · exact hrs x hx
theorem Maintains.interpMap (a : Bool) (cp : Entries) (es : List (Value × Value)) (hc : V (.map cp)) (hes : ∀ e ∈ es, V e.1 ∧ V e.2) :
    Maintains V (fun r => V (.map r.1)) (interpMap E rec a cp es) := by
  match es with
  | [] => simp only [Hiera.interpMap]; exact Maintains.pure hc
  | (k, v) :: es =>
    simp only [Hiera.interpMap]
    have hkv := hes (k, v) List.mem_cons_self
    exact Maintains.bind (Maintains.interp a k hkv.1) (fun rk hk => Maintains.bind (Maintains.interp a v hkv.2) (fun rv hv' =>
      Maintains.bind (Maintains.interpMap a _ es (h.put hc (h.getD hk) (h.getD hv')) (fun e he => hes e (List.mem_cons_of_mem _ he)))
        (fun rs hrs => Maintains.pure hrs)))
end

theorem Maintains.interpolate (a : Bool) {v : Value} (hv : V v) : Maintains V (OptV V) (interpolate E rec a v) := by
  refine Maintains.bind (Maintains.interp h hr a v hv) (fun r hr' => Maintains.pure ?_)
  split
  · exact hr'
  · exact OptV.some hv

theorem Maintains.interpCfg (s : Str) : Maintains V (fun _ => True) (interpCfg E rec s) := by
  unfold Hiera.interpCfg
  refine Maintains.bind (Maintains.interpStr h hr s false) (fun r _ => ?_)
  split
  · exact Maintains.pure trivial
  · exact Maintains.panic _

/-! ### Resolving -/

/-- An entry on its way: the defaults have a function. -/
theorem Maintains.resolveFunction {d : Option Entry} {e : Entry} (he : EntryOk V e) :
    Maintains V (fun e' => EntryOk V e' ∧ e'.function ≠ none ∧ e'.locations = e.locations) (resolveFunction E rec d e) := by
  unfold Hiera.resolveFunction
  split
  · split
    · exact Maintains.pure ⟨he, nofun, rfl⟩
    · split
      · exact Maintains.pure ⟨he, nofun, rfl⟩
      · exact Maintains.panic _
  · exact Maintains.bind (Maintains.interpCfg h hr _) (fun _ _ => Maintains.pure ⟨he, nofun, rfl⟩)

theorem Maintains.resolveDataDir {d : Option Entry} {e : Entry} (he : EntryOk V e) :
    Maintains V (fun e' => EntryOk V e' ∧ e'.function ≠ none ∧ e'.locations = e.locations) (resolveDataDir E rec d e) := by
  unfold Hiera.resolveDataDir
  refine Maintains.bind (Maintains.resolveFunction h hr he) (fun e' he' => ?_)
  split
  · split <;> exact Maintains.pure he'
  · exact Maintains.bind (Maintains.interpCfg h hr _) (fun _ _ => Maintains.pure he')

theorem Maintains.resolvePluginDir {d : Option Entry} {e e0 : Entry} (he : EntryOk V e ∧ e.function ≠ none ∧ e.locations = e0.locations) :
    Maintains V (fun e' => EntryOk V e' ∧ e'.function ≠ none ∧ e'.locations = e0.locations) (resolvePluginDir E rec d e) := by
  unfold Hiera.resolvePluginDir
  refine Maintains.bind (Q := fun _ => True) ?_ (fun _ _ => Maintains.pure he)
  unfold pluginDirOf
  split
  · split <;> exact Maintains.pure trivial
  · exact Maintains.interpCfg h hr _

theorem Maintains.resolveOptions {d : Option Entry} (hd : ∀ x, d = some x → EntryOk V x) {e e0 : Entry}
    (he : EntryOk V e ∧ e.function ≠ none ∧ e.locations = e0.locations) :
    Maintains V (fun e' => EntryOk V e' ∧ e'.function ≠ none ∧ e'.locations = e0.locations) (resolveOptions E rec d e) := by
  unfold Hiera.resolveOptions
  split
  · split
    · next x => 
      refine Maintains.pure ⟨?_, he.2⟩
      intro o ho
      cases ho
      cases hx : x.options with
      | none => exact h.nil
      | some o => exact hd x rfl o hx
    · refine Maintains.pure ⟨?_, he.2⟩
      intro o ho
      cases ho
      exact h.nil
  · exact Maintains.pure he
  · next os hos hh =>
    refine Maintains.bind (Maintains.interpolate h hr false (he.1 _ hh)) (fun r hr' => ?_)
    split
    · exact Maintains.pure ⟨fun o ho => by cases ho; exact hr'.get, he.2⟩
    · exact Maintains.panic _

theorem Maintains.resolveMapped (key t d : Str) {mvs : List Value} (hm : ∀ x ∈ mvs, V x) :
    Maintains V (fun ls => ∀ l ∈ ls, Concrete l) (resolveMapped E rec key t d mvs) := by
  induction mvs with
  | nil => exact Maintains.pure (fun _ h => nomatch h)
  | cons mv mvs ih =>
    refine Maintains.bind Maintains.view (fun v hv => Maintains.bind (Maintains.doWithScope (Q := fun _ => True) ?_
      (Maintains.bind (Maintains.interpCfg h hr _) (fun _ _ => Maintains.pure trivial)))
      (fun _ _ => Maintains.bind (ih (fun x hx => hm x (List.mem_cons_of_mem _ hx))) (fun ls hls => Maintains.pure ?_)))
    · intro k
      unfold Scope.withVar
      simp only
      split
      · exact OptV.some (hm mv List.mem_cons_self)
      · exact hv.ic.scope k
    · intro l hl
      rcases List.mem_cons.mp hl with rfl | hl
      · trivial
      · exact hls l hl

theorem Maintains.resolveLoc (d : Str) (l : Loc) : Maintains V (fun ls => ∀ l ∈ ls, Concrete l) (l.resolve E rec d) := by
  cases l with
  | path o _ _ => exact Maintains.bind (Maintains.interpCfg h hr _) (fun _ _ => Maintains.pure (fun l hl => by rw [List.mem_singleton.mp hl]; trivial))
  | glob o =>
    refine Maintains.bind (Maintains.interpCfg h hr _) (fun _ _ => Maintains.pure (fun l hl => ?_))
    obtain ⟨m, _, rfl⟩ := List.mem_map.mp hl
    trivial
  | uri o _ => exact Maintains.bind (Maintains.interpCfg h hr _) (fun _ _ => Maintains.pure (fun l hl => by rw [List.mem_singleton.mp hl]; trivial))
  | mapped a k t =>
    refine Maintains.bind (Maintains.interpInScope h hr _ _) (fun r hr' => ?_)
    split
    · exact Maintains.resolveMapped h hr _ _ _ (fun x hx => by rw [List.mem_singleton.mp hx]; exact h.str _)
    · exact Maintains.resolveMapped h hr _ _ _ (h.arr_mem hr'.get)
    · exact Maintains.pure (fun _ h => nomatch h)

theorem Maintains.resolveLocs (d : Str) (ls : List Loc) : Maintains V (fun ls => ∀ l ∈ ls, Concrete l) (resolveLocs E rec d ls) := by
  induction ls with
  | nil => exact Maintains.pure (fun _ h => nomatch h)
  | cons l ls ih =>
    refine Maintains.bind (Maintains.resolveLoc h hr d l) (fun a ha => Maintains.bind ih (fun b hb => Maintains.pure (fun x hx => ?_)))
    rcases List.mem_append.mp hx with hx | hx
    · exact ha x hx
    · exact hb x hx

theorem Maintains.resolveEntry {d : Option Entry} (hd : ∀ x, d = some x → EntryOk V x) {e : Entry} (he : EntryOk V e) :
    Maintains V (Complete V) (e.resolve E rec d) := by
  unfold Entry.resolve
  refine Maintains.bind (Maintains.resolveFunction h hr he) (fun e1 h1 => Maintains.bind (Maintains.resolveDataDir h hr h1.1) (fun e2 h2 =>
    Maintains.bind (Maintains.resolvePluginDir h hr (e0 := e2) ⟨h2.1, h2.2.1, rfl⟩) (fun e3 h3 =>
      Maintains.bind (Maintains.resolveOptions h hr hd (e0 := e3) ⟨h3.1, h3.2.1, rfl⟩) (fun e4 h4 => ?_))))
  unfold resolveLocations
  split
  · next hn => exact Maintains.pure ⟨h4.1, h4.2.1, fun ls hls => by rw [hn] at hls; cases hls⟩
  · exact Maintains.bind (Maintains.resolveLocs h hr _ _) (fun ls hls => Maintains.pure ⟨h4.1, h4.2.1, fun _ e => by cases e; exact hls⟩)

theorem Maintains.createProvidersLoop {d : Entry} (hd : EntryOk V d) {es : List Entry} (hes : ∀ e ∈ es, EntryOk V e) :
    Maintains V (fun ps => ∀ p ∈ ps, Complete V p.entry) (createProvidersLoop E rec d es) := by
  induction es with
  | nil => exact Maintains.pure (fun _ h => nomatch h)
  | cons e es ih =>
    refine Maintains.bind (Maintains.resolveEntry h hr (fun x hx => by cases hx; exact hd) (hes e List.mem_cons_self)) (fun e' he' =>
      Maintains.bind (Q := fun p => Complete V p.entry) ?_ (fun p hp =>
        Maintains.bind (ih (fun x hx => hes x (List.mem_cons_of_mem _ hx))) (fun ps hps => Maintains.pure (fun x hx => ?_))))
    · exact Maintains.bind Maintains.view (fun v _ => Maintains.bind (Maintains.update (fun w hw =>
        ⟨hw.ic, ⟨hw.mem.configs, hw.mem.hashes, hw.mem.parsed, hw.mem.cache⟩⟩)) (fun _ _ => Maintains.pure he'))
    · rcases List.mem_cons.mp hx with rfl | hx
      · exact hp
      · exact hps x hx

theorem Maintains.createProviders {c : Cfg} (hc : CfgOk V c) {es : List Entry} (hes : ∀ e ∈ es, EntryOk V e) :
    Maintains V (fun ps => ∀ p ∈ ps, Complete V p.entry) (createProviders E rec c es) :=
  Maintains.bind (Maintains.resolveEntry h hr (fun _ (h : none = some _) => nomatch h) hc.1) (fun _ hd => Maintains.createProvidersLoop h hr hd.options hes)

/-! ### Providers -/

omit hr in
theorem Vals.loaded {e : Entry} {n : Str} {f : Fn} (hl : loadFunction E e n = .ok (some f)) : FnOk V f := by
  unfold loadFunction at hl
  split at hl
  · next hf => cases hl; exact h.functions _ _ hf
  · split at hl
    · exact h.plugins _ _ _ hl
    · cases hl

omit hr in
theorem Maintains.loadOnce (p : Prov) (n : Str) : Maintains V (fun f => ∀ g, f = some g → FnOk V g) (loadOnce E p n) := by
  unfold Hiera.loadOnce
  refine Maintains.bind (Maintains.lift (Q := fun f => ∀ g, f = some g → FnOk V g) (fun f hf g hg => ?_)) (fun f hf => ?_)
  · subst hg; exact h.loaded hf
  · refine Maintains.bind Maintains.view (fun v _ => ?_)
    split
    · exact Maintains.pure hf
    · refine Maintains.bind (Q := fun _ => True) ?_ (fun _ _ => Maintains.bind (Q := fun _ => True) (Maintains.update (fun w hw =>
        ⟨hw.ic, ⟨hw.mem.configs, hw.mem.hashes, hw.mem.parsed, hw.mem.cache⟩⟩)) (fun _ _ => Maintains.pure hf))
      unfold reportUnresolved
      split
      · exact Maintains.report (fine_text _)
      · exact Maintains.pure trivial

omit hr in
theorem Vals.optionsFor {p : Prov} (hp : EntryOk V p.entry) (loc : Option Loc) : V (.map (optionsFor p loc)) := by
  have h0 : V (.map (p.entry.options.getD [])) := by
    cases ho : p.entry.options with
    | none => exact h.nil
    | some o => exact hp o ho
  unfold Hiera.optionsFor
  split
  · exact h0
  · unfold Entries.merge
    split
    · exact h0
    · split
      · exact h.put h.nil (h.str _) (h.str _)
      · exact h.putAll h0 (fun e he => by rw [List.mem_singleton.mp he]; exact ⟨h.str _, h.str _⟩)

omit hr in
theorem Vals.fileData {read : Str → FileRes} (hrd : ∀ p v, read p = .value v → V v) {opts es : Entries}
    (he : fileData E read opts = .ok es) : V (.map es) := by
  unfold Hiera.fileData at he
  split at he
  · cases he
  · split at he
    · cases he; exact h.nil
    · cases he
    · next hv => cases he; exact hrd _ _ hv
    · cases he

omit hr in
theorem Maintains.dataHash {p : Prov} (hp : EntryOk V p.entry) (n : Str) (loc : Option Loc) :
    Maintains V (fun es => V (.map es)) (dataHash E p n loc) := by
  unfold Hiera.dataHash
  refine Maintains.bind Maintains.view (fun v hv => ?_)
  split
  · next hs => 
    refine Maintains.pure ?_
    exact hv.mem.hashes _ (assoc_mem hs)
  · refine Maintains.bind (Q := fun es => V (.map es)) ?_ (fun es hes => Maintains.bind (Q := fun _ => True) (Maintains.update (fun w hw =>
      ⟨hw.ic, ⟨hw.mem.configs, fun x hx => ?_, hw.mem.parsed, hw.mem.cache⟩⟩)) (fun _ _ => Maintains.pure hes))
    · unfold callHash
      split
      · exact Maintains.bind (Maintains.emit _) (fun _ _ => Maintains.lift (fun es hes => h.fileData h.yaml hes))
      · split
        · exact Maintains.bind (Maintains.emit _) (fun _ _ => Maintains.lift (fun es hes => h.fileData h.json hes))
        · refine Maintains.bind (Maintains.loadOnce h p n) (fun f hf => ?_)
          split
          · next f => 
            refine Maintains.bind (Maintains.emit _) (fun _ _ => Maintains.bind (Q := OptV V) (Maintains.lift (fun r hr x hx => ?_)) (fun r hr => ?_))
            · subst hx; exact hf _ rfl _ _ (h.optionsFor hp loc) hr
            · split
              · exact Maintains.pure hr.get
              · exact Maintains.pure h.nil
          · exact Maintains.panic _
          · exact Maintains.pure h.nil
    · rcases List.mem_cons.mp hx with rfl | hx
      · exact hes
      · exact hw.mem.hashes x hx

omit hr h in
theorem Maintains.reportResult (k : Str) {v : Option Value} (hv : OptV V v) : Maintains V (OptV V) (reportResult k v) := by
  cases v with
  | none => exact Maintains.bind (Maintains.report (fine_notFound _)) (fun _ _ => Maintains.pure hv)
  | some x => exact Maintains.bind (Maintains.report (fine_found _ hv.get)) (fun _ _ => Maintains.pure hv)

omit hr in
theorem Vals.env (k : Str) : OptV V (envLookup E k) := by
  have hm : ∀ (evs : List Str) (em : Entries), V (.map em) → V (.map (envMap evs em)) := by
    intro evs
    induction evs with
    | nil => exact fun _ h => h
    | cons e evs ih =>
      intro em hem
      unfold envMap
      split
      · exact ih _ (h.put hem (h.str _) (h.str _))
      · exact ih _ hem
  intro x hx
  unfold envLookup at hx
  split at hx
  · cases hx; exact hm _ _ h.nil
  · split at hx
    · cases he : E.lookupEnv _ with
      | none => rw [he] at hx; cases hx
      | some s => rw [he] at hx; cases hx; exact h.str _
    · cases hx

theorem Maintains.provLookup {p : Prov} (hp : Complete V p.entry) (loc : Option Loc) (k : Key) :
    Maintains V (OptV V) (provLookup E rec p loc k) := by
  unfold Hiera.provLookup
  split
  · refine Maintains.bind (Maintains.dataHash h hp.options _ loc) (fun es hes => ?_)
    split
    · exact Maintains.reportResult _ OptV.none
    · next x hx => exact Maintains.bind (Maintains.interpolate h hr true (h.getS hes _ _ hx)) (fun r hr => Maintains.reportResult _ hr)
  · unfold dataDigLookup
    refine Maintains.bind (Maintains.loadOnce h p _) (fun f hf => ?_)
    split
    · next f =>
      refine Maintains.bind (Maintains.emit _) (fun _ _ => Maintains.bind (Q := OptV V) (Maintains.lift (fun r hr x hx => ?_)) (fun r hr => ?_))
      · subst hx; exact hf _ rfl _ _ hr
      · split
        · exact Maintains.bind (Maintains.report (fine_found _ hr.get)) (fun _ _ => Maintains.pure (OptV.some (h.bury k hr.get)))
        · exact Maintains.reportResult _ OptV.none
    · exact Maintains.panic _
    · exact Maintains.reportResult _ OptV.none
  · unfold lookupKeyLookup
    simp only
    split
    · exact Maintains.bind (Maintains.emit _) (fun _ _ => Maintains.reportResult _ (h.env _))
    · split
      · exact Maintains.bind (Maintains.emit _) (fun _ _ => Maintains.bind Maintains.view (fun v hv => Maintains.reportResult _ (hv.ic.scope _)))
      · refine Maintains.bind (Maintains.loadOnce h p _) (fun f hf => ?_)
        split
        · exact Maintains.bind (Maintains.emit _) (fun _ _ => Maintains.bind (hr.lk _ _ _ (hf _ rfl) (h.optionsFor hp.options loc)) (fun r hr =>
            Maintains.reportResult _ hr))
        · exact Maintains.panic _
        · exact Maintains.reportResult _ OptV.none
  · exact Maintains.panic _

omit hr in
theorem Maintains.mergeM {α : Type} (st : Strategy) (vs : List α) {f : α → M (Option Value)}
    (hf : ∀ a ∈ vs, Maintains V (OptV V) (f a)) : Maintains V (OptV V) (mergeM st vs f) := by
  have loop : ∀ (vs : List α) (memo : Option Value), (∀ a ∈ vs, Maintains V (OptV V) (f a)) → OptV V memo →
      Maintains V (OptV V) (mergeLoop st f memo vs) := by
    intro vs
    induction vs with
    | nil => exact fun memo _ hm => Maintains.pure hm
    | cons v vs ih =>
      intro memo hf hm
      refine Maintains.bind (hf v List.mem_cons_self) (fun r hr => ?_)
      have hf' : ∀ a ∈ vs, Maintains V (OptV V) (f a) := fun a ha => hf a (List.mem_cons_of_mem _ ha)
      cases r with
      | none => exact ih _ hf' hm
      | some x =>
        cases memo with
        | none => exact ih _ hf' (OptV.some (h.convert st hr.get))
        | some a => exact ih _ hf' (OptV.some (h.merge st hm.get hr.get))
  have first : ∀ (vs : List α), (∀ a ∈ vs, Maintains V (OptV V) (f a)) → Maintains V (OptV V) (firstLoop f vs) := by
    intro vs
    induction vs with
    | nil => exact fun _ => Maintains.pure OptV.none
    | cons v vs ih =>
      intro hf
      refine Maintains.bind (hf v List.mem_cons_self) (fun r hr => ?_)
      cases r with
      | none => exact ih (fun a ha => hf a (List.mem_cons_of_mem _ ha))
      | some x => exact Maintains.pure hr
  have fin : ∀ r : Option Value, OptV V r → Maintains V (OptV V)
      (match r with | some v => (do Hiera.report (.result v); Pure.pure (some v)) | none => Pure.pure none : M (Option Value)) := by
    intro r hr
    cases r with
    | none => exact Maintains.pure OptV.none
    | some x => exact Maintains.bind (Maintains.report (fine_result hr.get)) (fun _ _ => Maintains.pure hr)
  have one : ∀ v, Maintains V (OptV V) (f v) →
      Maintains V (OptV V) (do match ← f v with | some x => Pure.pure (some (st.single x)) | none => Pure.pure none) := by
    intro v hv
    refine Maintains.bind hv (fun r hr => ?_)
    cases r with
    | none => exact Maintains.pure OptV.none
    | some x => exact Maintains.pure (OptV.some (h.single st hr.get))
  have many : ∀ vs : List α, (∀ a ∈ vs, Maintains V (OptV V) (f a)) → Maintains V (OptV V) (Hiera.withNode (.new (.merge st)) (do
      let r ← mergeLoop st f none vs
      match r with | some v => (do Hiera.report (.result v); Pure.pure (some v)) | none => Pure.pure none)) := fun vs hvs =>
    Maintains.withNode (GoodNode.new (by trivial) _) (open_new id _) (Maintains.bind (loop vs none hvs OptV.none) fin)
  unfold Hiera.mergeM
  match vs with
  | [] => cases st <;> exact Maintains.pure OptV.none
  | [v] =>
    have hv := hf v List.mem_cons_self
    cases st
    · exact hv
    · exact one v hv
    · exact one v hv
    · exact one v hv
  | v :: w :: vs =>
    cases st
    · exact Maintains.bind (first _ hf) fin
    · exact many _ hf
    · exact many _ hf
    · exact many _ hf

theorem Maintains.invokeWithLocation {p : Prov} (hp : Complete V p.entry) (k : Key) {l : Loc} (hl : Concrete l) :
    Maintains V (OptV V) (invokeWithLocation E rec p k l) := by
  refine Maintains.withNode (GoodNode.new (by exact hl) _) (open_new id _) ?_
  split
  · exact Maintains.provLookup h hr hp _ _
  · exact Maintains.bind (Maintains.report fine_locationNotFound) (fun _ _ => Maintains.pure OptV.none)

theorem Maintains.mergeLocations (k : Key) (st : Strategy) {p : Prov} (hp : Complete V p.entry) :
    Maintains V (OptV V) (mergeLocations E rec k st p) := by
  refine Maintains.withNode (GoodNode.new (by trivial) _) (open_new id _) ?_
  split
  · exact Maintains.provLookup h hr hp _ _
  · exact Maintains.pure OptV.none
  · next l hl => exact Maintains.invokeWithLocation h hr hp _ (hp.locations _ hl l List.mem_cons_self)
  · next ls _ _ hls => exact Maintains.mergeM h _ _ (fun l hl => Maintains.invokeWithLocation h hr hp _ (hp.locations _ hls l hl))

theorem Maintains.mergeHierarchy (k : Key) {ps : List Prov} (hps : ∀ p ∈ ps, Complete V p.entry) (st : Strategy) :
    Maintains V (OptV V) (mergeHierarchy E rec k ps st) :=
  Maintains.mergeM h _ _ (fun p hp => Maintains.mergeLocations h hr _ _ (hps p hp))

/-! ### Configurations and lookup functions -/

omit hr in
theorem Maintains.loadConfig (path : Str) : Maintains V (CfgOk V) (loadConfig E path) := by
  unfold Hiera.loadConfig
  refine Maintains.bind Maintains.view (fun v hv => ?_)
  split
  · next c hc =>
    rcases Option.or_eq_some_iff.1 hc with hc | ⟨_, hc⟩
    · exact Maintains.pure (hv.mem.parsed _ (assoc_mem hc))
    · exact Maintains.pure (h.cfg _ _ (elsewhere_ok hc))
  · split
    · exact Maintains.hang
    · refine Maintains.bind (Maintains.emit _) (fun _ _ => ?_)
      split
      · next c hc =>
        refine Maintains.bind (Q := fun _ => True) (Maintains.update (fun w hw => ⟨hw.ic, ⟨hw.mem.configs, hw.mem.hashes, fun x hx => ?_, hw.mem.cache⟩⟩))
          (fun _ _ => Maintains.pure (h.cfg _ _ hc))
        rcases List.mem_cons.mp hx with rfl | hx
        · exact h.cfg _ _ hc
        · exact hw.mem.parsed x hx
      · exact Maintains.bind (Q := fun _ => True) (Maintains.update (fun w hw =>
          ⟨hw.ic, ⟨hw.mem.configs, hw.mem.hashes, hw.mem.parsed, hw.mem.cache⟩⟩)) (fun _ _ => Maintains.panic _)

omit hr h in
theorem Spec.OptV.asMap {r : Option Value} (hr : OptV V r) : ∀ m, asMap r = .some m → V (.map m) := by
  intro m hm
  unfold Hiera.asMap at hm
  split at hm
  · cases hm; exact hr.get
  · cases hm

theorem Maintains.resolve {c : Cfg} (hc : CfgOk V c) (m : Str) : Maintains V (RcOk V) (resolve E rec c m) := by
  unfold Hiera.resolve
  refine Maintains.bind (Q := fun pd => (∀ p ∈ pd.1, Complete V p.entry) ∧ ∀ p ∈ pd.2, Complete V p.entry)
    (Maintains.forConfig (Maintains.bind (Maintains.createProviders h hr hc hc.2.1) (fun ps hps =>
      Maintains.bind (Maintains.createProviders h hr hc hc.2.2) (fun ds hds => Maintains.pure ⟨hps, hds⟩)))) (fun pd hpd => ?_)
  refine Maintains.bind (Q := OptV V) (Maintains.forLookupOptions (Maintains.withNode (GoodNode.new (by trivial) _) (open_new id _)
    (Maintains.mergeM h _ _ (fun p hp => Maintains.mergeLocations h hr _ _ (hpd.1 p hp))))) (fun v hv => Maintains.pure ⟨hpd.1, hpd.2, hv.asMap⟩)

theorem Maintains.config (path m : Str) : Maintains V (RcOk V) (config E rec path m) := by
  unfold Hiera.config
  refine Maintains.bind Maintains.view (fun v hv => ?_)
  split
  · next hc => exact Maintains.pure (hv.mem.configs _ (assoc_mem hc))
  · refine Maintains.bind (Maintains.loadConfig h _) (fun c hc => Maintains.bind (Maintains.resolve h hr hc _) (fun rc hrc =>
      Maintains.bind (Q := fun _ => True) (Maintains.update (fun w hw => ⟨hw.ic, ⟨fun x hx => ?_, hw.mem.hashes, hw.mem.parsed, hw.mem.cache⟩⟩))
        (fun _ _ => Maintains.pure hrc)))
    rcases List.mem_cons.mp hx with rfl | hx
    · exact hrc
    · exact hw.mem.configs x hx

omit hr in
theorem RcOk.optionsOf {rc : RCfg} (hrc : RcOk V rc) (k : Key) : ∀ m, rc.optionsOf k = some m → V (.map m) := by
  intro m hm
  unfold RCfg.optionsOf at hm
  split at hm
  · cases hm
  · next lo hlo =>
    split at hm
    · exact OptV.asMap (h.getS (hrc.options lo hlo) _) m hm
    · cases hm

omit hr h in
theorem Maintains.setMergeStrategy (cli : Option Value) {lo : Option Entries} (hlo : ∀ m, lo = some m → V (.map m)) :
    Maintains V (fun _ => True) (setMergeStrategy cli lo) := by
  unfold Hiera.setMergeStrategy
  refine Maintains.bind (Q := fun _ => True) ?_ (fun o _ => Maintains.bind (Q := fun _ => True)
    (Maintains.update (fun w hw => hw.setIc ⟨hw.ic.scope, hlo⟩)) (fun _ _ => Maintains.bind (Q := fun _ => True) (Maintains.lift (fun _ _ => trivial))
      (fun st _ => Maintains.update (fun w hw => hw.setIc ⟨hw.ic.scope, hw.ic.luOpts⟩))))
  unfold mergeOption
  split
  · exact Maintains.bind (Maintains.report (fine_mergeSource _)) (fun _ _ => Maintains.pure trivial)
  · split
    · exact Maintains.pure trivial
    · split
      · exact Maintains.bind (Maintains.report (fine_mergeSource _)) (fun _ _ => Maintains.pure trivial)
      · exact Maintains.pure trivial

omit hr in
theorem Vals.conversion {lo : Option Entries} (hlo : ∀ m, lo = some m → V (.map m)) {c : Option (Nat × Option (List Value))}
    (hc : extractConversion E lo = .ok c) : ∀ t l, c = some (t, some l) → ∀ a ∈ l, V a := by
  intro t l hcl a ha
  subst hcl
  unfold extractConversion at hc
  split at hc
  · cases hc
  · next m =>
    have hg := h.getS (hlo m rfl) "convert_to".toList
    split at hc
    · cases hc
    · cases hc
    · next t' _ => cases hp : E.parseType t' with
      | ok n => rw [hp] at hc; cases hc
      | panic e => rw [hp] at hc; cases hc
    · next t' b bs hb => cases hp : E.parseType t' with
      | ok n =>
        rw [hp] at hc
        cases hc
        exact h.arr_mem (hg _ hb) a (List.mem_cons_of_mem _ ha)
      | panic e => rw [hp] at hc; cases hc
    · next t' _ => cases hp : E.parseType t' with
      | ok n => rw [hp] at hc; cases hc
      | panic e => rw [hp] at hc; cases hc
    · cases hc

omit hr in
theorem Maintains.lookupAndConvert {f : M (Option Value)} (hf : Maintains V (OptV V) f) : Maintains V (OptV V) (lookupAndConvert E f) := by
  unfold Hiera.lookupAndConvert
  refine Maintains.bind Maintains.view (fun v hv => Maintains.bind (Q := fun c => ∀ t l, c = some (t, some l) → ∀ a ∈ l, V a)
    (Maintains.lift (fun c hc => h.conversion hv.ic.luOpts hc)) (fun c hc => Maintains.bind (Q := OptV V) ?_ (fun r hr => Maintains.lift (fun w hw => ?_))))
  · unfold maybeRedacted
    split
    · split
      · exact Maintains.doRedacted hf
      · exact hf
    · exact hf
  · unfold convert at hw
    split at hw
    · next x t as => 
      cases hn : E.newValue t x as with
      | ok y =>
        rw [hn] at hw
        cases hw
        exact OptV.some (h.newValue t x as y hr.get (fun l hl a ha => hc t l (by rw [hl]) a ha) hn)
      | panic e => rw [hn] at hw; cases hw
    · cases hw; exact hr

omit hr h in
theorem Maintains.currentStrategy : Maintains V (fun _ => True) currentStrategy := by
  unfold Hiera.currentStrategy
  refine Maintains.bind Maintains.view (fun v _ => ?_)
  split
  · exact Maintains.pure trivial
  · exact Maintains.panic _

theorem Maintains.configAt (path : Str) {opts : Entries} (key m : Str) :
    Maintains V (OptV V) (configAt E rec path opts key m) := by
  unfold Hiera.configAt
  refine Maintains.bind (Maintains.config h hr _ _) (fun cfg hc => Maintains.bind (Q := fun _ => True) (Maintains.lift (fun _ _ => trivial)) (fun k _ =>
    Maintains.bind Maintains.view (fun v _ => ?_)))
  split
  · refine Maintains.pure (fun x hx => ?_)
    cases ho : cfg.optionsOf k with
    | none => rw [ho] at hx; cases hx
    | some mm => rw [ho] at hx; cases hx; exact hc.optionsOf h k mm ho
  · exact Maintains.bind Maintains.currentStrategy (fun st _ => Maintains.mergeHierarchy h hr _ hc.providers _)
  · exact Maintains.forData (Maintains.withNode (GoodNode.new (by trivial) _) (open_new id _) (Maintains.bind (Maintains.setMergeStrategy _ (hc.optionsOf h k)) (fun _ _ =>
      Maintains.lookupAndConvert h (Maintains.bind Maintains.currentStrategy (fun st _ => Maintains.mergeHierarchy h hr _ hc.providers _)))))

theorem Maintains.muxLookup {opts : Entries} (ho : V (.map opts)) (key : Str) : Maintains V (OptV V) (muxLookup E rec opts key) := by
  unfold Hiera.muxLookup
  split
  · exact Maintains.pure OptV.none
  · next fs hfs =>
    have hf := h.mux fs hfs
    exact Maintains.bind (Maintains.forLookupOptions (Maintains.mergeM h _ _ (fun f hm => hr.lk f opts key (hf f hm) ho))) (fun lo hlo =>
      Maintains.forData (Maintains.bind (Q := fun _ => True) (Maintains.lift (fun _ _ => trivial)) (fun k _ =>
        Maintains.withNode (GoodNode.new (by trivial) _) (open_new id _) (Maintains.bind (Maintains.setMergeStrategy _ hlo.asMap) (fun _ _ =>
          Maintains.lookupAndConvert h (Maintains.bind Maintains.currentStrategy (fun st _ =>
            Maintains.mergeM h _ _ (fun f hm => hr.lk f opts key (hf f hm) ho))))))))

omit hr h in
theorem Maintains.putCache (key : Str) {x : Value} (hx : V x) : Maintains V (fun _ => True) (putCache key x) := by
  refine Maintains.update (fun w hw => ⟨hw.ic, ⟨hw.mem.configs, hw.mem.hashes, hw.mem.parsed, fun y hy => ?_⟩⟩)
  rcases List.mem_cons.mp hy with rfl | hy
  · exact hx
  · exact hw.mem.cache y hy

omit hr in
theorem Maintains.yamlLookup (key : Str) : Maintains V (OptV V) (yamlLookup E key) := by
  unfold Hiera.yamlLookup
  refine Maintains.bind Maintains.view (fun v hv => ?_)
  split
  · next hc => exact Maintains.pure (h.getS (hv.mem.cache _ (assoc_mem hc)) _)
  · exact Maintains.panic _
  · exact Maintains.bind (Q := fun es => V (.map es)) (Maintains.lift (fun es hes => h.fileData h.yaml hes)) (fun es hes =>
      Maintains.bind (Maintains.putCache _ hes) (fun _ _ => Maintains.pure (h.getS hes _)))

theorem Maintains.moduleLookup {opts : Entries} (key : Str) : Maintains V (OptV V) (moduleLookup E rec opts key) := by
  unfold Hiera.moduleLookup
  split
  · exact Maintains.pure OptV.none
  · exact Maintains.pure OptV.none
  · refine Maintains.bind (Q := fun _ => True) (Maintains.lift (fun _ _ => trivial)) (fun mp _ => ?_)
    cases mp with
    | some cp => exact Maintains.withNode (GoodNode.new (by trivial) _) (open_new id _) (Maintains.configAt h hr _ _ _)
    | none =>
      refine Maintains.withNode' ?_ ?_
      · intro s ups hs ht r t e
        simp only [bind_def, Hiera.report, ht, Tree.accept] at e
        by_cases hon : s.on.isNone = true
        · rw [if_pos hon] at e; cases e
          exact ⟨hs, ⟨_, ht, GoodNode.new (by trivial) _⟩, fun a ha => by cases ha; exact OptV.none⟩
        · rw [if_neg hon] at e; cases e
          exact ⟨hs, ⟨_, rfl, .mk trivial OptV.none (fun h => nomatch h) (fun _ => rfl) (fun _ h => nomatch h)⟩,
            fun a ha => by cases ha; exact OptV.none⟩
      · intro s cur ups hon hs ht hg ho r t e
        simp only [bind_def, Hiera.report, hon, ↓reduceIte] at e
        cases e
        exact ⟨hs, ⟨cur, ht, hg, rfl, ho⟩, fun a ha => by cases ha; exact OptV.none⟩

theorem Maintains.runProg {p : Prog} (hp : ProgOk V p) : Maintains V (OptV V) (runProg E rec p) := by
  induction p with
  | ret v => exact Maintains.pure hp
  | panic e => exact Maintains.panic _
  | interpolate v k ih => exact Maintains.bind (Maintains.interpolate h hr _ hp.1) (fun r hr => ih _ (hp.2 r hr))
  | lookup key o k ih =>
    exact Maintains.bind (Maintains.lift (Q := fun k => newKey k.source = .ok k) (fun k hk => newKey_parsed hk)) (fun kk hk =>
      Maintains.bind (hr.lookup _ _ hk hp.1) (fun r hr => ih _ (hp.2 r hr)))
  | explain t k ih => exact Maintains.bind (Maintains.report (fine_text _)) (fun _ _ => ih hp)
  | cache key x k ih =>
    exact Maintains.bind Maintains.view (fun v hv => Maintains.bind (Maintains.putCache _ hp.1) (fun _ _ => ih _ (hp.2 _ (fun y hy => hv.mem.cache _ (assoc_mem hy)))))
  | cachedValue key k ih => exact Maintains.bind Maintains.view (fun v hv => ih _ (hp _ (fun y hy => hv.mem.cache _ (assoc_mem hy))))
  | scopeGet key k ih => exact Maintains.bind Maintains.view (fun v hv => ih _ (hp _ (hv.ic.scope _)))

theorem Maintains.callLk {f : LkFn} (hf : LkOk V f) {opts : Entries} (ho : V (.map opts)) (key : Str) :
    Maintains V (OptV V) (callLk E rec f opts key) := by
  cases f with
  | config => exact Maintains.configAt h hr _ _ _
  | mux => exact Maintains.muxLookup h hr ho _
  | env => exact Maintains.pure (h.env _)
  | scope => exact Maintains.bind Maintains.view (fun v hv => Maintains.pure (hv.ic.scope _))
  | yaml => exact Maintains.yamlLookup h _
  | module => exact Maintains.moduleLookup h hr _
  | custom f => exact Maintains.runProg h hr (hf _ _ ho)
  | notFunction => exact Maintains.pure OptV.none

theorem Maintains.lookup {k : Key} (hk : newKey k.source = .ok k) {opts : Entries} (ho : V (.map opts)) :
    Maintains V (OptV V) (lookup E rec k opts) := by
  unfold Hiera.lookup
  split
  · refine Maintains.withNode' ?_ ?_
    · intro s ups hs ht r t e
      simp only [bind_def, Hiera.report, ht, Tree.accept] at e
      by_cases hon : s.on.isNone = true
      · rw [if_pos hon] at e; cases e
        exact ⟨hs, ⟨_, ht, GoodNode.new (by trivial) _⟩, fun a ha => by cases ha; exact OptV.none⟩
      · rw [if_neg hon] at e; cases e
        exact ⟨hs, ⟨_, rfl, .mk trivial OptV.none (fun h => nomatch h) (fun _ => rfl) (fun _ h => nomatch h)⟩,
          fun a ha => by cases ha; exact OptV.none⟩
    · refine fun s cur ups _ => (?_ : Maintains V (OptV V) (do Hiera.report (.notFound k.source); Pure.pure none)) s cur ups
      exact Maintains.bind (Maintains.report (fine_notFound _)) (fun _ _ => Maintains.pure OptV.none)
  · refine Maintains.bind (Maintains.callLk h hr h.top ho _) (fun r hr' => ?_)
    split
    · exact Maintains.pure OptV.none
    · exact Maintains.forData (Maintains.bind (Maintains.interpolate h hr true hr'.get) (fun r hr'' => Maintains.dig h hk hr''))

theorem RecMaintains.step : RecMaintains V (step E rec) :=
  ⟨fun _ _ hk ho => Maintains.lookup h hr hk ho, fun v a hv => Maintains.interp h hr a v hv, fun _ _ _ hf ho => Maintains.callLk h hr hf ho _⟩

omit hr in
/-- Evaluation keeps the invariants. -/
theorem RecMaintains.eval (n : Nat) : RecMaintains V (eval E n) := by
  induction n with
  | zero => exact ⟨fun _ _ _ _ => Maintains.hang, fun _ _ _ => Maintains.hang, fun _ _ _ _ _ => Maintains.hang⟩
  | succ n ih => exact RecMaintains.step h ih
end

/-- Anything goes for values. -/
theorem vals_true (E : Env) : Vals E (fun _ => True) where
  null := trivial
  str _ := trivial
  arr _ := trivial
  arr_mem _ _ _ := trivial
  map_mem _ _ _ := ⟨trivial, trivial⟩
  nil := trivial
  put _ _ _ := trivial
  merge _ _ _ _ _ := trivial
  convert _ _ _ := trivial
  single _ _ _ := trivial
  bury _ _ _ := trivial
  yaml _ _ _ := trivial
  json _ _ _ := trivial
  functions := fun _ f _ => fnTrue f
  plugins := fun _ _ f _ => fnTrue f
  top := lkTrue _
  mux := fun _ _ f _ => lkTrue f
  newValue _ _ _ _ _ _ _ := trivial
where
  progTrue : ∀ p, ProgOk (fun _ => True) p := by
    intro p
    induction p with
    | ret v => exact fun _ _ => trivial
    | panic e => trivial
    | interpolate v k ih => exact ⟨trivial, fun r _ => ih r⟩
    | lookup _ _ k ih => exact ⟨trivial, fun r _ => ih r⟩
    | explain _ k ih => exact ih
    | cache _ _ k ih => exact ⟨trivial, fun r _ => ih r⟩
    | cachedValue _ k ih => exact fun r _ => ih r
    | scopeGet _ k ih => exact fun r _ => ih r
  lkTrue : ∀ f, LkOk (fun _ => True) f := by
    intro f
    cases f with
    | custom f => exact fun o k _ => progTrue _
    | _ => trivial
  fnTrue : ∀ f, FnOk (fun _ => True) f := by
    intro f
    cases f with
    | key f => exact lkTrue f
    | _ => exact fun _ _ => by intros; trivial

/-- The states of a session are as they should be. -/
theorem served_good {E : Env} {V : Value → Prop} (h : Vals E V) {s : St} (hs : Served E V s) :
    ViewOk V s.v ∧ ∃ root, s.tree = .at root [] ∧ GoodNode V root ∧ root.kind = .root ∧ OpenNode root := by
  induction hs with
  | start ex hc =>
    exact ⟨⟨⟨hc, fun _ h => nomatch h⟩, ⟨(fun _ h => nomatch h), (fun _ h => nomatch h), (fun _ h => nomatch h), fun _ h => nomatch h⟩⟩,
      _, rfl, GoodNode.new (by trivial) _, rfl, open_new id _⟩
  | invocation ex _ hc ih =>
    exact ⟨⟨⟨hc, fun _ h => nomatch h⟩, ⟨(fun _ h => nomatch h), (fun _ h => nomatch h), ih.1.mem.parsed, ih.1.mem.cache⟩⟩,
      _, rfl, GoodNode.new (by trivial) _, rfl, open_new id _⟩
  | among _ _ ih => exact ⟨⟨ih.1.ic, ⟨ih.1.mem.configs, ih.1.mem.hashes, ih.1.mem.parsed, ih.1.mem.cache⟩⟩, ih.2⟩
  | lookup _ hk ho hl ih =>
    obtain ⟨hv, root, ht, hg, hkd, hop⟩ := ih
    obtain ⟨h1, ⟨c, h2, h3, h4, h5⟩, _⟩ := (RecMaintains.eval h _).lookup _ _ (newKey_parsed hk) ho _ root [] hv ht hg hop _ _ hl
    exact ⟨h1, c, h2, h3, h4.trans hkd, h5⟩

/-- What a session answers has the property. -/
theorem served_answer {E : Env} {V : Value → Prop} (h : Vals E V) {s t : St} (hs : Served E V s) {n : Nat} {key : Str} {k : Key}
    {opts : Entries} {r : Option Value} (hk : newKey key = .ok k) (ho : V (.map opts))
    (hl : (eval E n).lookup k opts s = some (.ok r, t)) : OptV V r := by
  obtain ⟨hv, root, ht, hg, hkd, hop⟩ := served_good h hs
  exact ((RecMaintains.eval h _).lookup _ _ (newKey_parsed hk) ho _ root [] hv ht hg hop _ _ hl).2.2 _ rfl

end Hiera
