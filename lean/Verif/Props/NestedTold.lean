/- C91: what explanations tell about the lookups that interpolating values makes. -/
import Verif.Props.TrueTold

set_option autoImplicit false

namespace Hiera

open Value Spec World

/-- All nodes of a tree, the lower ones too. -/
inductive Spec.Everywhere (P : Node → Prop) : Node → Prop
  | node {n : Node} : P n → (∀ b ∈ n.branches, Everywhere P b) → Everywhere P n

/-- If this is the node of a provider, it tells what an entry of the hierarchy has, for some key and strategy. -/
def Spec.TrueIfProvider (E : Env) (x : Site) (sc : Scope) (b : Node) : Prop :=
  ∀ name, b.kind = .dataProvider name → ∃ d w st k p o, p.entry ∈ x.entries ∧ ProvTrue E (ref E (some x) d) ⟨sc, w⟩ st k p o b

/-! ### Nodes that are added -/

/-- The current node has got branches of which all nodes are meant. -/
def TreeGains (G : Node → Prop) : Tree → Tree → Prop
  | .at c us, .at c' us' => us' = us ∧ c'.kind = c.kind ∧ ∃ bs, c'.branches = c.branches ++ bs ∧ ∀ b ∈ bs, Everywhere G b
  | _, _ => False

def Gains (G : Node → Prop) (s t : St) : Prop := t.on = s.on ∧ TreeGains G s.tree t.tree

theorem TreeGains.refl {G : Node → Prop} (c : Node) (us : List Node) : TreeGains G (.at c us) (.at c us) :=
  ⟨rfl, rfl, [], by simp, fun _ h => nomatch h⟩

theorem Gains.refl {G : Node → Prop} {s : St} (h : IsAt s.tree) : Gains G s s := by
  obtain ⟨c, us, hc⟩ := tree_cases h
  exact ⟨rfl, by rw [hc]; exact .refl c us⟩

theorem TreeGains.trans {G : Node → Prop} {a b c : Tree} (h : TreeGains G a b) (h' : TreeGains G b c) : TreeGains G a c := by
  cases a <;> cases b <;> cases c <;> simp only [TreeGains] at *
  obtain ⟨h1, h2, bs, h3, h4⟩ := h
  obtain ⟨g1, g2, cs, g3, g4⟩ := h'
  exact ⟨g1.trans h1, g2.trans h2, bs ++ cs, by rw [g3, h3, List.append_assoc],
    fun b hb => (List.mem_append.1 hb).elim (h4 b) (g4 b)⟩

theorem Gains.trans {G : Node → Prop} {a b c : St} (h : Gains G a b) (h' : Gains G b c) : Gains G a c :=
  ⟨h'.1.trans h.1, h.2.trans h'.2⟩

theorem TreeGains.right {G : Node → Prop} {a b : Tree} (h : TreeGains G a b) : IsAt b := by
  cases a <;> cases b <;> simp only [TreeGains] at h
  exact isAt_at _ _

/-- Popping a node that is meant. -/
theorem gains_pop {G : Node → Prop} {s t : St} {n c : Node} {us : List Node} (hs : s.tree = .at c us) (hn : n.branches = [])
    (h : Gains G { s with tree := .at n (c :: us) } t) (hG : ∀ c', t.tree = .at c' (c :: us) → c'.kind = n.kind → G c') :
    Gains G s { t with tree := t.tree.pop } := by
  obtain ⟨h1, h2⟩ := h
  obtain ⟨c', us', ht⟩ := tree_cases h2.right
  simp only [ht, TreeGains] at h2
  obtain ⟨rfl, h3, bs, h4, h5⟩ := h2
  rw [hn, List.nil_append] at h4
  refine ⟨h1, ?_⟩
  simp only [ht, Tree.pop, hs, TreeGains]
  exact ⟨trivial, rfl, [c'], rfl, fun b hb => by
    cases List.mem_singleton.1 hb
    exact .node (hG c' ht h3) (h4 ▸ h5)⟩

/-- From views with `J`, computations lead to such views and add nodes that are meant. -/
def Adding (J : View → Prop) (G : Node → Prop) : Rel := fun α m _ => ∀ s r t, Meant J s → m s = some (r, t) →
  Gains G s t ∧ ∀ a : α, r = .ok a → J t.v

section
variable {J : View → Prop} {G : Node → Prop} (hG : ∀ b : Node, (∀ name, b.kind ≠ .dataProvider name) → G b)
include hG

theorem Adding.core : PlainCore (Adding J G) where
  pure := fun a s r t hs h => by cases h; exact ⟨.refl hs.2, fun _ _ => hs.1⟩
  bind := by
    intro α β m m' f f' hm hf s r t hs h
    rw [bind_def] at h
    cases hr : m s with
    | none => rw [hr] at h; cases h
    | some q =>
      obtain ⟨a | e, u⟩ := q
      · obtain ⟨h1, h2⟩ := hm s _ u hs hr
        rw [hr] at h
        obtain ⟨h3, h4⟩ := hf a u r t ⟨h2 a rfl, h1.2.right⟩ h
        exact ⟨h1.trans h3, h4⟩
      · rw [hr] at h
        cases h
        exact ⟨(hm s _ _ hs hr).1, fun _ h => nomatch h⟩
  panic := fun e s r t hs h => by cases h; exact ⟨.refl hs.2, fun _ h => nomatch h⟩
  viewBind := fun hf s r t hs h => hf s.v s.v.mem s r t hs h
  node := by
    intro α m m' n hn hm s r t hs h
    obtain ⟨c, us, hc⟩ := tree_cases hs.2
    by_cases ho : s.on.isNone = true
    · rw [withNode_off ho] at h; exact hm s r t hs h
    · rw [withNode_on ho hc] at h
      split at h
      · cases h
      · rename_i q u hr
        cases h
        obtain ⟨h1, h2⟩ := hm { s with tree := .at n (c :: us) } _ _ ⟨hs.1, isAt_at _ _⟩ hr
        have hp : n.branches = [] ∧ ∀ name, n.kind ≠ .dataProvider name := by
          obtain ⟨kd, a2, a3, a4, a5, bs⟩ := n
          cases kd <;> cases bs <;> first | (cases hn; done) | exact ⟨rfl, fun _ h => nomatch h⟩
        exact ⟨gains_pop hc hp.1 h1 (fun c' _ hk => hG c' (by rw [hk]; exact hp.2)), h2⟩
  mark := by
    intro f hf s r t hs h
    obtain ⟨c, us, hc⟩ := tree_cases hs.2
    unfold Hiera.report at h
    split at h
    · cases h; exact ⟨.refl hs.2, fun _ _ => hs.1⟩
    · rw [hc] at h
      cases h
      obtain ⟨h1, bs, h2, h3⟩ := hf c
      refine ⟨⟨rfl, ?_⟩, fun _ _ => hs.1⟩
      rw [hc]
      exact ⟨rfl, h1.1, bs, h2, fun b hb => by
        obtain ⟨src, rfl⟩ := h3 b hb
        exact .node (hG _ (fun _ h => nomatch h)) (fun _ h => nomatch h)⟩

end

/-! ### In an invocation with a resolved configuration -/

/-- What the memories have. -/
def Held (E : Env) (x : Site) (v : View) : Prop := Coh E v.hashes ∧ ∃ rc, assoc E.configPath v.configs = some rc ∧
  rc.providers.map Prov.entry = x.entries ∧ rc.lookupOptions = x.options ∧ rc.moduleName = []

/-- In a lookup for a caller, or for data. -/
def Called (E : Env) (sc : Scope) (ic : Ic) : Prop :=
  ic.scope = sc ∧ (E.top = .config → (ic.mode = .top ∧ ic.strategy = none) ∨ ic.mode = .data)

/-- In a lookup for data. -/
def ForValue (E : Env) (sc : Scope) (ic : Ic) : Prop := ic.scope = sc ∧ (E.top = .config → ic.mode = .data)

theorem ForValue.called {E : Env} {sc : Scope} {ic : Ic} (h : ForValue E sc ic) : Called E sc ic := ⟨h.1, fun ht => .inr (h.2 ht)⟩

/-- Conditions on an `Ic` between the two. -/
structure Between (E : Env) (sc : Scope) (I : Ic → Prop) : Prop where
  called : ∀ {ic}, I ic → Called E sc ic
  value : ∀ {ic}, ForValue E sc ic → I ic
  data : ∀ {ic}, I ic → ic.mode = .data → ForValue E sc ic
  options : ∀ {ic : Ic}, E.top ≠ .config → I ic → I { ic with mode := .lookupOptions }

theorem Between.top (E : Env) (sc : Scope) : Between E sc (Called E sc) :=
  ⟨id, ForValue.called, fun h hm => ⟨h.1, fun _ => hm⟩, fun hn h => ⟨h.1, fun ht => absurd ht hn⟩⟩

theorem Between.bottom (E : Env) (sc : Scope) : Between E sc (ForValue E sc) :=
  ⟨ForValue.called, id, fun h _ => h, fun hn h => ⟨h.1, fun ht => absurd ht hn⟩⟩

/-- A view with such an `Ic` and memories. -/
def HeldIn (E : Env) (x : Site) (I : Ic → Prop) (v : View) : Prop := Held E x v ∧ I v.ic

theorem HeldIn.stands {E : Env} {x : Site} {sc : Scope} {v : View} (h : HeldIn E x (Called E sc) v) :
    ∃ w, Stands E (some x) ⟨sc, w⟩ v := by
  obtain ⟨⟨h1, h2⟩, h3, h4⟩ := h
  have go : ∀ w, (E.top = .config → w ≠ .options ∧ WithinIs w v.ic) → Stands E (some x) ⟨sc, w⟩ v := fun w hw =>
    ⟨rfl, h3, h1, fun y hy => by cases hy; exact ⟨h2⟩, fun _ ht => hw ht, fun h => nomatch h⟩
  by_cases ht : E.top = .config
  · rcases h4 ht with h5 | h5
    · exact ⟨.call, go _ (fun _ => ⟨by simp, h5⟩)⟩
    · exact ⟨.value v.ic.strategy, go _ (fun _ => ⟨by simp, h5, rfl⟩)⟩
  · exact ⟨.call, go _ (fun h => absurd h ht)⟩

section
variable (E : Env) (x : Site) (sc : Scope) (I : Ic → Prop)

/-- Nodes of providers tell the truth, wherever they are added. -/
abbrev Honest : Rel := Adding (HeldIn E x I) (TrueIfProvider E x sc)

theorem Honest.core : PlainCore (Honest E x sc I) := Adding.core (fun _ h name hn => absurd hn (h name))

variable {E x sc I}

theorem Honest.update {f : View → View} (hf : ∀ v, HeldIn E x I v → HeldIn E x I (f v)) : Honest E x sc I _ (update f) (update f) :=
  fun s r t hs h => by cases h; exact ⟨.refl hs.2, fun _ _ => hf _ hs.1⟩

theorem Honest.loadOnce (p : Prov) (n : Str) : Honest E x sc I _ (loadOnce E p n) (loadOnce E p n) := by
  have c := Honest.core E x sc I
  unfold Hiera.loadOnce
  refine c.bind (c.lift _) (fun f => ?_)
  refine c.viewBind (fun v _ => ?_)
  intro s r t hs h
  split at h
  · cases h; exact ⟨.refl hs.2, fun _ _ => hs.1⟩
  · have h1 : Honest E x sc I _ (reportUnresolved n f) (reportUnresolved n f) := by
      cases f
      · exact c.mark _ (by marks)
      · exact c.pure _
    exact c.bind h1 (fun _ => c.bind (m' := markLoaded p.id) (Honest.update (fun _ h => h)) (fun _ => c.pure f)) s r t hs h

theorem Honest.dataHash (p : Prov) (n : Str) (loc : Option Loc) (hf : Fits p n loc) : Honest E x sc I _ (dataHash E p n loc) (dataHash E p n loc) := by
  intro s r t hs h
  -- the nodes
  have c := Adding.core (J := fun _ => True) (G := TrueIfProvider E x sc) (fun _ h name hn => absurd hn (h name))
  have up : ∀ f, Adding (fun _ => True) (TrueIfProvider E x sc) _ (Hiera.update f) (Hiera.update f) :=
    fun f s r t hs h => by cases h; exact ⟨.refl hs.2, fun _ _ => trivial⟩
  have lo : Adding (fun _ => True) (TrueIfProvider E x sc) _ (Hiera.loadOnce E p n) (Hiera.loadOnce E p n) := by
    unfold Hiera.loadOnce
    refine c.bind (c.lift _) (fun f => c.viewBind (fun v _ => ?_))
    intro s r t hs h
    split at h
    · cases h; exact ⟨.refl hs.2, fun _ _ => trivial⟩
    · have h1 : Adding (fun _ => True) (TrueIfProvider E x sc) _ (reportUnresolved n f) (reportUnresolved n f) := by
        cases f
        · exact c.mark _ (by marks)
        · exact c.pure _
      exact c.bind h1 (fun _ => c.bind (m' := markLoaded p.id) (up _) (fun _ => c.pure f)) s r t hs h
  have ca : ∀ o, Adding (fun _ => True) (TrueIfProvider E x sc) _ (callHash E p n o) (callHash E p n o) := by
    intro o
    unfold Hiera.callHash
    split
    · exact c.bind (up _) (fun _ => c.lift _)
    · split
      · exact c.bind (up _) (fun _ => c.lift _)
      · refine c.bind lo (fun f => ?_)
        rcases f with _ | (f | f | f)
        · exact c.pure _
        · refine c.bind (up _) (fun _ => c.bind (c.lift _) (fun r => ?_))
          split <;> exact c.pure _
        · exact c.panic _
        · exact c.panic _
  have da : ∀ loc, Adding (fun _ => True) (TrueIfProvider E x sc) _ (Hiera.dataHash E p n loc) (Hiera.dataHash E p n loc) := by
    intro loc
    unfold Hiera.dataHash
    refine c.viewBind (fun v _ => ?_)
    intro s r t hs h
    revert h
    cases assoc (p, match loc with | some l => l.resolved | none => []) v.hashes with
    | some a => exact fun h => c.pure _ s r t hs h
    | none => exact fun h => c.bind (ca _) (fun _ => c.bind (up _) (fun _ => c.pure _)) s r t hs h
  refine ⟨(da loc s r t ⟨trivial, hs.2⟩ h).1, fun a ha => ?_⟩
  subst ha
  -- the memories
  obtain ⟨hs', ld, tr, h1, hc⟩ := dataHash_coherent E p n loc hf ⟨s.v, none, .at (.new .root) []⟩ rfl hs.1.1.1
  rcases ((NI.base.dataHash E p n loc) s ⟨s.v, none, .at (.new .root) []⟩ rfl hs.2 (isAt_at _ _)).elim with
    ⟨h2, _⟩ | ⟨b, t1, t2, h2, h3, h4, _⟩ | ⟨e, t1, t2, h2, _⟩
  · rw [h2] at h; cases h
  · rw [h2] at h
    cases h
    rw [h1] at h3
    have h5 := congrArg (Option.map Prod.snd) h3
    simp only [Option.map_some, Option.some.injEq] at h5
    rw [h4, ← h5]
    exact ⟨⟨hc, hs.1.1.2⟩, hs.1.2⟩
  · rw [h2] at h; cases h

theorem Honest.invoking (he : StatelessEnv E) : Invoking E (Honest E x sc I) Stateless Fits where
  toPlainCore := Honest.core E x sc I
  loadOnce := Honest.loadOnce
  emitDig := fun _ _ => Honest.update (fun _ h => h)
  emitKey := fun _ _ _ => Honest.update (fun _ h => h)
  dataHash := Honest.dataHash
  keyFn := fun e n f h => (he.keyFn e n f h).1
  fits := fun _ _ _ h => h

/-- Running on a copy of the `Ic`. -/
theorem Honest.withCopy {α : Type} {I' : Ic → Prop} {m m' : M α} (f : Ic → Ic) (g : Option ExplOpts → Option ExplOpts)
    (hf : ∀ ic, I ic → I' (f ic)) (hm : Honest E x sc I' α m m') : Honest E x sc I α (withCopy f g m) (withCopy f g m') := by
  intro s r t hs h
  unfold Hiera.withCopy at h
  split at h
  · cases h
  · rename_i hr
    cases h
    obtain ⟨h1, h2⟩ := hm _ _ _ (⟨⟨hs.1.1, hf _ hs.1.2⟩, hs.2⟩ : Meant _ { s with v := { s.v with ic := f s.v.ic }, on := g s.on }) hr
    exact ⟨⟨rfl, h1.2⟩, fun a ha => ⟨(h2 a ha).1, hs.1.2⟩⟩

variable (hI : Between E sc I)
include hI

theorem Honest.forData {α : Type} {m m' : M α} (hm : Honest E x sc (ForValue E sc) α m m') :
    Honest E x sc I α (forData m) (forData m') := by
  intro s r t hs h
  unfold Hiera.forData at h
  rw [bind_ok (show view s = some (.ok s.v, s) from rfl)] at h
  split at h
  · rename_i hd
    obtain ⟨h1, h2⟩ := hm s r t ⟨⟨hs.1.1, hI.data hs.1.2 hd⟩, hs.2⟩ h
    exact ⟨h1, fun a ha => ⟨(h2 a ha).1, hI.value (h2 a ha).2⟩⟩
  · exact Honest.withCopy _ _ (fun ic hi => ⟨(hI.called hi).1, fun _ => rfl⟩) hm s r t hs h

theorem Honest.forLookupOptions {α : Type} {m m' : M α} (ht : E.top ≠ .config) (hm : Honest E x sc I α m m') :
    Honest E x sc I α (forLookupOptions m) (forLookupOptions m') := by
  intro s r t hs h
  unfold Hiera.forLookupOptions at h
  rw [bind_ok (show view s = some (.ok s.v, s) from rfl)] at h
  split at h
  · exact hm s r t hs h
  · exact Honest.withCopy _ _ (fun ic hi => hI.options ht hi) hm s r t hs h

omit hI in
theorem Honest.doRedacted {α : Type} {m m' : M α} (hm : Honest E x sc (ForValue E sc) α m m') :
    Honest E x sc (ForValue E sc) α (doRedacted m) (doRedacted m') := by
  intro s r t hs h
  unfold Hiera.doRedacted at h
  split at h
  · exact hm s r t hs h
  · split at h
    · cases h
    · rename_i hr
      cases h
      obtain ⟨h1, h2⟩ := hm _ _ _ (⟨⟨hs.1.1, hs.1.2⟩, hs.2⟩ :
        Meant _ { s with v := { s.v with ic := { s.v.ic with redacted := true } } }) hr
      exact ⟨h1, fun a ha => h2 a ha⟩

omit hI in
theorem Honest.setMergeStrategy (cli : Option Value) (lo : Option Entries) (he : StatelessEnv E) :
    Honest E x sc (ForValue E sc) _ (setMergeStrategy cli lo) (setMergeStrategy cli lo) := by
  have h := Honest.invoking (x := x) (sc := sc) (I := ForValue E sc) he
  unfold Hiera.setMergeStrategy
  exact h.bind (h.mergeOption cli lo) (fun o => h.bind (Honest.update (fun _ h => h)) (fun _ => h.bind (h.lift _)
    (fun _ => Honest.update (fun _ h => h))))

omit hI in
theorem Honest.lookupAndConvert (he : StatelessEnv E) {f f' : M (Option Value)} (hf : Honest E x sc (ForValue E sc) _ f f') :
    Honest E x sc (ForValue E sc) _ (lookupAndConvert E f) (lookupAndConvert E f') := by
  have h := Honest.invoking (x := x) (sc := sc) (I := ForValue E sc) he
  unfold Hiera.lookupAndConvert
  refine h.viewBind (fun v mm => h.bind (h.lift _) (fun c => h.bind ?_ (fun r => h.lift _)))
  unfold maybeRedacted
  rcases c with _ | ⟨t, as⟩
  · exact hf
  · by_cases hs : E.isSensitive t = true
    · simp only [hs, ↓reduceIte]; exact Honest.doRedacted hf
    · simp only [hs]; exact hf

section
variable (he : StatelessEnv E) {n : Nat} (hr : RecRelOn (Honest E x sc I) (Honest E x sc I) Stateless (eval E n) (eval E n))
  (hd : RecRelOn (Honest E x sc (ForValue E sc)) (Honest E x sc (ForValue E sc)) Stateless (eval E n) (eval E n))
include he hr

/-- The nodes of a provider. -/
theorem Honest.mergeLocations (k : Key) (st : Strategy) (p : Prov) (hp : p.entry ∈ x.entries) :
    Honest E x sc I _ (mergeLocations E (eval E n) k st p) (mergeLocations E (eval E n) k st p) := by
  intro s r t hs h
  have hb := (Honest.invoking he).askLocations hr k st p
  by_cases ho : s.on.isNone = true
  · unfold Hiera.mergeLocations at h
    rw [withNode_off ho] at h
    exact hb s r t hs h
  · obtain ⟨c, us, hc⟩ := tree_cases hs.2
    obtain ⟨w, hw⟩ := HeldIn.stands (⟨hs.1.1, hI.called hs.1.2⟩ : HeldIn E x (Called E sc) s.v)
    obtain ⟨_, b, h2, h3⟩ := mergeLocations_tells he (RecSim.resolved he x n) (C := ⟨sc, w⟩) trivial k st p s c us r t (by cases hq : s.on.isNone; rfl; exact absurd hq ho) hc hw h
    unfold Hiera.mergeLocations at h
    rw [withNode_on ho hc] at h
    split at h
    · cases h
    · rename_i q u hr'
      cases h
      obtain ⟨g1, g2⟩ := hb { s with tree := .at (.new (.dataProvider p.fullName)) (c :: us) } _ _ ⟨hs.1, isAt_at _ _⟩ hr'
      refine ⟨gains_pop hc rfl g1 (fun c' hc' _ name _ => ⟨n, w, st, k, p, r, hp, ?_⟩), g2⟩
      have : Tree.at (c.appendBranch c') us = Tree.at (c.appendBranch b) us := by
        rw [← h2]
        show _ = u.tree.pop
        rw [hc']
        rfl
      have e : c' = b := by
        injection this with h4
        injection h4 with _ _ _ _ _ h5
        exact List.cons.inj (List.append_cancel_left h5) |>.1
      rw [e]
      exact h3

theorem Honest.mergeHierarchy (k : Key) (ps : List Prov) (hps : ps.map Prov.entry = x.entries) (st : Strategy) :
    Honest E x sc I _ (mergeHierarchy E (eval E n) k ps st) (mergeHierarchy E (eval E n) k ps st) :=
  (Honest.core E x sc I).mergeM _ _ _ _ (fun p hp => Honest.mergeLocations hI he hr k st p (by rw [← hps]; exact List.mem_map_of_mem hp))

include hd

theorem Honest.configAt (opts : Entries) (key : Str) :
    Honest E x sc I _ (configAt E (eval E n) E.configPath opts key []) (configAt E (eval E n) E.configPath opts key []) := by
  intro s r t hs h
  obtain ⟨rc, h1, h2, h3, h4⟩ := hs.1.1.2
  have i := Honest.invoking (x := x) (sc := sc) (I := I) he
  have d := Honest.invoking (x := x) (sc := sc) (I := ForValue E sc) he
  unfold Hiera.configAt at h
  rw [bind_ok (config_path (eval E n) [] s h1)] at h
  have go : ∀ m : M (Option Value), Honest E x sc I _ m m → m s = some (r, t) → _ := fun m hm h => hm s r t hs h
  refine go _ (i.bind (i.lift _) (fun k => i.viewBind (fun v _ => ?_))) h
  simp only [View.withMem]
  cases v.ic.mode
  · exact Honest.forData hI (d.node _ rfl (d.bind (Honest.setMergeStrategy _ _ he) (fun _ =>
      Honest.lookupAndConvert he (d.bind d.currentStrategy (fun st => Honest.mergeHierarchy (.bottom E sc) he hd k _ h2 st)))))
  · exact i.pure _
  · exact i.bind i.currentStrategy (fun st => Honest.mergeHierarchy hI he hr k _ h2 st)

theorem Honest.muxLookup (ht : E.top ≠ .config) (opts : Entries) (key : Str) :
    Honest E x sc I _ (muxLookup E (eval E n) opts key) (muxLookup E (eval E n) opts key) := by
  have i := Honest.invoking (x := x) (sc := sc) (I := I) he
  have d := Honest.invoking (x := x) (sc := sc) (I := ForValue E sc) he
  unfold Hiera.muxLookup
  cases hm : E.muxFns with
  | none => exact i.pure _
  | some fs =>
    exact i.bind (Honest.forLookupOptions hI ht (i.mergeM _ _ _ _ (fun f hf => hr.lkOn _ _ _ (he.mux fs f hm hf)))) (fun lo => Honest.forData hI
      (d.bind (d.lift _) (fun k => d.node _ rfl (d.bind (Honest.setMergeStrategy _ _ he) (fun _ => Honest.lookupAndConvert he
        (d.bind d.currentStrategy (fun st => d.mergeM _ _ _ _ (fun f hf => hd.lkOn _ _ _ (he.mux fs f hm hf)))))))))

omit hI hd in
theorem Honest.runProg (p : Prog) (hp : TameProg p) : Honest E x sc I _ (runProg E (eval E n) p) (runProg E (eval E n) p) := by
  have i := Honest.invoking (x := x) (sc := sc) (I := I) he
  induction hp with
  | ret v => exact i.pure _
  | panic e => exact i.panic _
  | interpolate v k _ ih => exact i.bind (i.interpolate hr.interp hr.lookup _) (fun r => ih _)
  | lookup key o k _ ih => exact i.bind (i.lift _) (fun kk => i.bind (hr.lookup _ _) (fun r => ih _))
  | explain t k _ ih => exact i.bind (i.mark _ (by marks)) (fun _ => ih)
  | scopeGet key k _ ih => exact i.viewBind (fun v mm => ih _)

theorem Honest.callLk (f : LkFn) (opts : Entries) (key : Str) (hf : Stateless f) :
    Honest E x sc I _ (callLk E (eval E n) f opts key) (callLk E (eval E n) f opts key) := by
  have i := Honest.invoking (x := x) (sc := sc) (I := I) he
  cases f with
  | config => exact Honest.configAt hI he hr hd _ _
  | mux => exact hf.elim
  | env => exact i.pure _
  | scope => exact i.viewBind (fun v mm => i.pure _)
  | yaml => exact hf.elim
  | module => exact hf.elim
  | custom f => exact Honest.runProg he hr _ (hf _ _)
  | notFunction => exact i.pure _

omit hr in
theorem Honest.after (key : Key) (v : Option Value) :
    Honest E x sc I _ (match v with
      | none => pure none
      | some x => Hiera.forData (Hiera.interpolate E (eval E n) true x >>= fun r => dig key r))
     (match v with
      | none => pure none
      | some x => Hiera.forData (Hiera.interpolate E (eval E n) true x >>= fun r => dig key r)) := by
  have d := Honest.invoking (x := x) (sc := sc) (I := ForValue E sc) he
  cases v with
  | none => exact (Honest.core E x sc I).pure _
  | some y => exact Honest.forData hI (d.bind (d.interpolate hd.interp hd.lookup _) (fun r => d.dig _ _))

theorem Honest.lookup (key : Key) (opts : Entries) :
    Honest E x sc I _ (lookup E (eval E n) key opts) (lookup E (eval E n) key opts) := by
  have i := Honest.invoking (x := x) (sc := sc) (I := I) he
  unfold Hiera.lookup
  by_cases hk : key.root = "lookup_options".toList
  · rw [if_pos hk]
    exact i.node _ rfl (i.bind (i.mark _ (by marks)) (fun _ => i.pure _))
  · rw [if_neg hk]
    have hc : Honest E x sc I _ (Hiera.callLk E (eval E n) E.top opts key.root) (Hiera.callLk E (eval E n) E.top opts key.root) := by
      rcases he.top with ht | ⟨ht, _⟩
      · rw [ht]; exact Honest.configAt hI he hr hd _ _
      · have hn : E.top ≠ .config := by rw [ht]; simp
        rw [ht]; exact Honest.muxLookup hI he hr hd hn _ _
    exact i.bind hc (fun v => Honest.after hI he hd key v)

theorem Honest.step : RecRelOn (Honest E x sc I) (Honest E x sc I) Stateless (step E (eval E n)) (step E (eval E n)) :=
  ⟨Honest.lookup hI he hr hd, fun v => (Honest.core E x sc I).interp hr.interp (fun _ => hr.lookup) E v,
    fun v => (Honest.core E x sc I).interp hr.interpC (fun h => nomatch h) E v, fun f o k hf => Honest.callLk hI he hr hd f o k hf⟩

end
end

theorem Honest.eval {E : Env} (he : StatelessEnv E) (x : Site) (sc : Scope) (n : Nat) :
    RecRelOn (Honest E x sc (Called E sc)) (Honest E x sc (Called E sc)) Stateless (eval E n) (eval E n) ∧
    RecRelOn (Honest E x sc (ForValue E sc)) (Honest E x sc (ForValue E sc)) Stateless (eval E n) (eval E n) := by
  induction n with
  | zero => exact ⟨⟨(fun _ _ _ _ _ _ h => nomatch h), (fun _ _ _ _ _ h => nomatch h), (fun _ _ _ _ _ h => nomatch h), (fun _ _ _ _ _ _ _ _ h => nomatch h)⟩,
      ⟨(fun _ _ _ _ _ _ h => nomatch h), (fun _ _ _ _ _ h => nomatch h), (fun _ _ _ _ _ h => nomatch h), (fun _ _ _ _ _ _ _ _ h => nomatch h)⟩⟩
  | succ n ih => exact ⟨Honest.step (.top E sc) he ih.1 ih.2, Honest.step (.bottom E sc) he ih.2 ih.2⟩

/-- C91 for all nodes of the explanation, those of the lookups that interpolating values makes included: after a lookup for a caller
(whatever its result, errors included), wherever the explanation has a node of a provider, this is one of the hierarchy, and the node
and those below it tell what this entry and its locations have, for some key and by some strategy, according to the reference
semantics. The options of all keys, which the first node is about if the explainer is told about options, are as in `C91_lookup`. -/
theorem C91_nested (E : Env) (he : StatelessEnv E) (htop : E.top = .config) {s : St} (hs : Session E s) (hl : s.v.locked = [])
    (scope : Scope) (ex : ExplOpts) (hx : ex.onlyOptions = false) (k : Key) (hk : k.root ≠ "lookup_options".toList) (opts : Entries)
    {cfg : Cfg} (hcfg : newCfg E.cfg E.configPath (E.readYaml E.configPath) = .ok cfg) {m : Nat} {x : Site}
    (hsite : refSite E (ref E none m) ⟨scope, .call⟩ cfg = some (.ok x))
    {n : Nat} {r : Res (Option Value)} {t : St} (h : (eval E n).lookup k opts (nextInvocation s scope (some ex)) = some (r, t)) :
    ∃ root pre post, t.tree = .at root [] ∧ root.branches = pre ++ post ∧ (ex.options = false → pre = []) ∧
      (ex.options = true → ∃ p d, pre = [p] ∧ OptionsTrue E (ref E none d) ⟨scope, .call⟩ x p) ∧
      ∀ b ∈ post, Everywhere (TrueIfProvider E x scope) b := by
  cases n with
  | zero => cases h
  | succ n =>
  have hinv := fresh_inv E hs hl scope
  have hcf := (open_follows he scope n).1 ⟨scope, .call⟩ _ rfl hinv
  have hni := (NI.closed E).config (NI.eval E n) E.configPath [] (nextInvocation s scope (some ex)) (nextInvocation s scope none)
    rfl (isAt_at _ _) (isAt_at _ _)
  have hopen : refOpen E (ref E none m) ⟨scope, .call⟩ = some (.ok x) := by
    unfold refOpen
    rw [hcfg]
    exact hsite
  have h' : lookup E (eval E n) k opts (nextInvocation s scope (some ex)) = some (r, t) := h
  unfold lookup at h'
  rw [if_neg hk, htop] at h'
  have h'' : (configAt E (eval E n) E.configPath opts k.root [] >>= fun v => match v with
    | none => pure none
    | some x => forData (interpolate E (eval E n) true x >>= fun r => dig k r)) (nextInvocation s scope (some ex)) = some (r, t) := h'
  clear h h'
  rcases hni.elim with ⟨g1, g2⟩ | ⟨rc, t1, t2, g1, g2, g3, g4, g5⟩ | ⟨e, t1, t2, g1, g2, _⟩
  · unfold configAt at h''
    rw [bind_none (bind_none g1)] at h''
    cases h''
  · rw [g2] at hcf
    match hrf : refOpen E (ref E none n) ⟨scope, .call⟩, hcf with
    | none, hcf => cases hcf
    | some (.panic e), ⟨u, hcf⟩ => cases hcf
    | some (.ok x'), ⟨rc', t', e', q1, q2, q3, q4⟩ =>
      cases e'
      cases refOpen_one hrf hopen
      obtain ⟨_, hic⟩ := config_leaves he.tame n rfl (by simp [nextInvocation]) g2
      obtain ⟨w1, pre, w2, w3, w4⟩ := config_tells he n (fun _ => hx) (s := nextInvocation s scope (some ex)) (c := .new .root) (us := []) rfl rfl
        (⟨rfl, hinv.scope, hinv.coh, (fun _ h => nomatch h), (fun h => nomatch h), fun h => ⟨(hinv.un h).1, (hinv.un h).2, (hinv.un h).3⟩⟩) (.inl rfl) hcfg hsite g1
      have hJ : HeldIn E x (Called E scope) t1.v := by
        rw [g3]
        exact ⟨⟨q3, q4.cfg⟩, q2, fun _ => .inl (by rw [hic]; exact ⟨rfl, rfl⟩)⟩
      -- once the configuration is resolved, the same would be done from the beginning
      have same : configAt E (eval E n) E.configPath opts k.root [] (nextInvocation s scope (some ex)) =
          configAt E (eval E n) E.configPath opts k.root [] t1 := by
        have hm : assoc E.configPath t1.v.configs = some rc := by rw [g3]; exact config_memo g2
        unfold configAt
        rw [bind_ok g1, bind_ok (config_path (eval E n) [] t1 hm)]
      rw [bind_def, same, ← bind_def] at h''
      have hh := Honest.eval he x scope n
      obtain ⟨⟨f1, f2⟩, _⟩ := (Honest.core E x scope (Called E scope)).bind (Honest.configAt (.top E scope) he hh.1 hh.2 opts k.root)
        (fun v => Honest.after (.top E scope) he hh.2 k v) t1 r t ⟨hJ, by rw [w2]; exact isAt_at _ _⟩ h''
      obtain ⟨c', us', hc'⟩ := tree_cases f2.right
      rw [w2, hc'] at f2
      obtain ⟨rfl, _, post, f3, f4⟩ := f2
      exact ⟨c', pre, post, hc', f3, w3, w4, f4⟩
  · rw [g2] at hcf
    match hrf : refOpen E (ref E none n) ⟨scope, .call⟩, hcf with
    | none, hcf => cases hcf
    | some (.panic e), ⟨u, hcf⟩ => cases refOpen_one hrf hopen
    | some (.ok x'), ⟨rc', t', e', q1, q2, q3, q4⟩ => cases e'

/-- The same for sessions as the command line and the server make them. -/
theorem C91_command_nested (E : Env) (he : StatelessEnv E) (htop : E.top = .mux) (hfs : E.muxFns = some [.config, .env]) {s : St}
    (hs : Session E s) (hl : s.v.locked = []) (scope : Scope) (ex : ExplOpts) (hx : ex.onlyOptions = false) (k : Key)
    (hk : k.root ≠ "lookup_options".toList) (opts : Entries)
    {cfg : Cfg} (hcfg : newCfg E.cfg E.configPath (E.readYaml E.configPath) = .ok cfg) {m : Nat} {x : Site}
    (hsite : refSite E (ref E none m) ⟨scope, .call⟩ cfg = some (.ok x))
    {k0 : Key} (hk0 : newKey k.root = .ok k0) {lo : Option Value} (hlo : optionsOfBoth E x k0 = some (.ok lo))
    {n : Nat} {r : Res (Option Value)} {t : St} (h : (eval E n).lookup k opts (nextInvocation s scope (some ex)) = some (r, t)) :
    ∃ root pre post, t.tree = .at root [] ∧ root.branches = pre ++ post ∧ (ex.options = false → pre = []) ∧
      (ex.options = true → ∃ m p d, pre = [m] ∧ m.kind = .merge (.deep []) ∧ m.branches = [p] ∧ OptionsTrue E (ref E none d) ⟨scope, .call⟩ x p) ∧
      ∀ b ∈ post, Everywhere (TrueIfProvider E x scope) b := by
  have hne : E.top ≠ .config := by rw [htop]; simp
  obtain ⟨t1, g1, hJ, hmode, ⟨ho1, c1, ht1, hpre, hpre2⟩, h''⟩ := command_opens E he htop hfs hs hl scope ex (fun _ => hx) k hk opts hcfg hsite hk0 hlo h
  have hh := Honest.eval he x scope (n + 1)
  have d := Honest.invoking (x := x) (sc := scope) (I := ForValue E scope) he
  have hH : HeldIn E x (Called E scope) t1.v := ⟨⟨hJ.coh, (hJ.at_ x rfl).cfg⟩, hJ.scope, fun h => absurd h hne⟩
  have hf : ∀ f ∈ [LkFn.config, .env], Stateless f := fun f hm => he.mux _ f hfs hm
  obtain ⟨⟨f1, f2⟩, _⟩ := (Honest.core E x scope (Called E scope)).bind (Honest.forData (.top E scope)
      (d.bind (d.lift _) (fun k => d.node _ rfl (d.bind (Honest.setMergeStrategy _ _ he) (fun _ => Honest.lookupAndConvert he
        (d.bind d.currentStrategy (fun st => d.mergeM _ _ _ _ (fun f hm => hh.2.lkOn _ _ _ (hf f hm)))))))))
    (fun v => Honest.after (.top E scope) he hh.2 k v) t1 r t ⟨hH, by rw [ht1]; exact isAt_at _ _⟩ h''
  obtain ⟨c', us', hc'⟩ := tree_cases f2.right
  rw [ht1, hc'] at f2
  obtain ⟨rfl, _, post, f3, f4⟩ := f2
  exact ⟨c', c1.branches, post, hc', f3, hpre, hpre2, f4⟩

/-! Not vacuous: the hypotheses hold as for `C91_lookup` and `C91_command`, and there are nodes of providers below those of others. -/

/-- How many nodes of providers there are in nodes, at least `d` of them above. -/
def providerNodes : Nat → Nat → List Node → Nat
  | 0, _, _ => 0
  | _, _, [] => 0
  | n + 1, d, .mk k _ _ _ _ bs :: ns =>
    (match k, d with
     | .dataProvider _, 0 => 1
     | _, _ => 0) +
    providerNodes n (match k with | .dataProvider _ => d - 1 | _ => d) bs + providerNodes n d ns

example : ((eval storiedWorld 6).lookup ⟨"m".toList, [.name "m".toList]⟩ [] (newInvocation (.map []) (some ⟨false, false⟩))).map
    (fun r => match r.2.tree with | .at c _ => (providerNodes 20 0 c.branches, providerNodes 20 1 c.branches) | .off _ => (0, 0)) = some (4, 2) := by
  decide +kernel
example : ((eval commandWorld 8).lookup ⟨"m".toList, [.name "m".toList]⟩ [] (newInvocation (.map []) (some ⟨false, false⟩))).map
    (fun r => match r.2.tree with | .at c _ => (providerNodes 20 0 c.branches, providerNodes 20 1 c.branches) | .off _ => (0, 0)) = some (4, 2) := by
  decide +kernel

end Hiera
