/- Relational reasoning about the evaluator: a relation between computations that is preserved by the primitive
operations is preserved by the whole evaluator. -/
import Verif.Model.Eval

set_option linter.unusedVariables false
set_option linter.unusedSectionVars false
set_option linter.unusedSimpArgs false

set_option autoImplicit false

namespace Hiera

/-- A node that has been added to: same kind, more branches and texts. -/
def Grows (n m : Node) : Prop := m.kind = n.kind ∧ n.branches <+: m.branches ∧ n.texts <+: m.texts

theorem Grows.refl (n : Node) : Grows n n := ⟨rfl, List.prefix_refl _, List.prefix_refl _⟩

theorem Grows.trans {a b c : Node} (h : Grows a b) (h' : Grows b c) : Grows a c :=
  ⟨h'.1.trans h.1, h.2.1.trans h'.2.1, h.2.2.trans h'.2.2⟩

theorem grows_appendBranch (b n : Node) : Grows n (n.appendBranch b) :=
  ⟨rfl, List.prefix_append _ _, List.prefix_refl _⟩
theorem grows_appendText (t : Str) (n : Node) : Grows n (n.appendText t) :=
  ⟨rfl, List.prefix_refl _, List.prefix_append _ _⟩
theorem grows_found (k : Str) (v : Value) (n : Node) : Grows n (n.found k v) := Grows.refl n
theorem grows_notFound (k : Str) (n : Node) : Grows n (n.notFound k) := Grows.refl n
theorem grows_locationNotFound (n : Node) : Grows n n.locationNotFound := Grows.refl n
theorem grows_moduleNotFound (n : Node) : Grows n n.moduleNotFound := Grows.refl n
theorem grows_result (v : Value) (n : Node) : Grows n (n.result v) := Grows.refl n
theorem grows_mergeSource (t : Str) (n : Node) : Grows n (n.mergeSource t) := grows_appendBranch _ n

/-- Closes goals about the operations of nodes. -/
macro "grows" : tactic => `(tactic| (intro n; first
  | exact grows_found _ _ _ | exact grows_notFound _ _ | exact grows_result _ _ | exact grows_locationNotFound _
  | exact grows_moduleNotFound _ | exact grows_appendText _ _ | exact grows_mergeSource _ _))

/-- A relation on computations. -/
abbrev Rel := (α : Type) → M α → M α → Prop

/-- The memories and records that only a few operations look at. -/
@[ext] structure Mem where
  hashes : List ((Prov × Str) × Entries)
  loaded : List Nat
  parsed : List (Str × Cfg)
  locked : List Str
  trace : List Ev
  ahead : List Ev → Str → Bool

def View.mem (v : View) : Mem := ⟨v.hashes, v.loaded, v.parsed, v.locked, v.trace, v.ahead⟩

/-- A view with other memories. -/
def View.withMem (v : View) (m : Mem) : View :=
  { v with hashes := m.hashes, loaded := m.loaded, parsed := m.parsed, locked := m.locked, trace := m.trace, ahead := m.ahead }

/-- A new node, other than that of a provider. -/
def Node.plain : Node → Bool
  | .mk (.dataProvider _) _ _ _ _ _ => false
  | .mk _ _ _ _ _ bs => bs.isEmpty

/-- A node that something was reported to: all that it has got as branches tells where the merge option is from. -/
def Marks (n m : Node) : Prop := Grows n m ∧ ∃ bs, m.branches = n.branches ++ bs ∧ ∀ b ∈ bs, ∃ src, b = .new (.mergeSource src)

theorem marks_same {n m : Node} (h : Grows n m) (e : m.branches = n.branches) : Marks n m :=
  ⟨h, [], by rw [e, List.append_nil], fun _ h => nomatch h⟩

/-- Closes goals about the operations of nodes. -/
macro "marks" : tactic => `(tactic| (intro n; first
  | exact marks_same (grows_found _ _ _) rfl | exact marks_same (grows_notFound _ _) rfl | exact marks_same (grows_result _ _) rfl
  | exact marks_same (grows_locationNotFound _) rfl | exact marks_same (grows_moduleNotFound _) rfl
  | exact marks_same (grows_appendText _ _) rfl
  | exact ⟨grows_mergeSource _ _, _, rfl, fun b hb => ⟨_, List.mem_singleton.1 hb⟩⟩))

/-- `R` is preserved by the most basic operations, except that nothing is said of the nodes of providers. -/
structure PlainCore (R : Rel) : Prop where
  pure : ∀ {α} (a : α), R α (pure a) (pure a)
  bind : ∀ {α β} {m m' : M α} {f f' : α → M β}, R α m m' → (∀ a, R β (f a) (f' a)) → R β (m >>= f) (m' >>= f')
  panic : ∀ {α} (e : Err), R α (panic e) (panic e)
  viewBind : ∀ {β} {f f' : View → M β}, (∀ v (x : Mem), R β (f v) (f' (v.withMem x))) →
    R β (view >>= f) (view >>= f')
  node : ∀ {α} {m m' : M α} n, n.plain = true → R α m m' → R α (withNode n m) (withNode n m')
  mark : ∀ f, (∀ n, Marks n (f n)) → R Unit (report f) (report f)

/-- `R` is preserved by the most basic operations. -/
structure Core (R : Rel) : Prop extends PlainCore R where
  withNode : ∀ {α} {m m' : M α} n, R α m m' → R α (withNode n m) (withNode n m')
  report : ∀ f, (∀ n, Grows n (f n)) → R Unit (report f) (report f)
  node := fun n _ h => withNode n h
  mark := fun f hf => report f (fun n => (hf n).1)

/-- The same for relations between computations that see the same view. -/
structure CoreV (R : Rel) : Prop where
  pure : ∀ {α} (a : α), R α (pure a) (pure a)
  bind : ∀ {α β} {m m' : M α} {f f' : α → M β}, R α m m' → (∀ a, R β (f a) (f' a)) → R β (m >>= f) (m' >>= f')
  panic : ∀ {α} (e : Err), R α (panic e) (panic e)
  view : R View view view
  withNode : ∀ {α} {m m' : M α} n, R α m m' → R α (withNode n m) (withNode n m')
  report : ∀ f, (∀ n, Grows n (f n)) → R Unit (report f) (report f)

theorem CoreV.toCore {R : Rel} (h : CoreV R) : Core R where
  pure := h.pure
  bind := h.bind
  panic := h.panic
  viewBind := fun hf => h.bind h.view (fun v => hf v v.mem)
  withNode := h.withNode
  report := h.report

/-- `R` is preserved by the basic operations, with arbitrary changes of the state. -/
structure Base (R : Rel) : Prop extends CoreV R where
  hang : ∀ {α}, R α hang hang
  update : ∀ f, R Unit (update f) (update f)
  withCopy : ∀ {α} {m m' : M α} f g, g none = none → R α m m' → R α (withCopy f g m) (withCopy f g m')
  doRedacted : ∀ {α} {m m' : M α}, R α m m' → R α (doRedacted m) (doRedacted m')

/-- A provider, its function and a location that it may be asked for: `n` is the name of its `data_hash` function, and
there is a location iff the provider has any. -/
def Fits (p : Prov) (n : Str) (loc : Option Loc) : Prop :=
  p.entry.function = some (.dataHash, n) ∧ loc.isSome = p.entry.locations.isSome

/-- `R` is preserved by the operations that asking providers is made of. The lookup functions that can be called satisfy
`F`, and data is asked for with `Fit` only. -/
structure Invoking (E : Env) (R : Rel) (F : LkFn → Prop) (Fit : Prov → Str → Option Loc → Prop) : Prop extends PlainCore R where
  loadOnce : ∀ p n, R (Option Fn) (loadOnce E p n) (loadOnce E p n)
  emitDig : ∀ n ps, R Unit (emit (.dig n ps)) (emit (.dig n ps))
  emitKey : ∀ n o k, R Unit (emit (.key n o k)) (emit (.key n o k))
  dataHash : ∀ p n loc, Fit p n loc → R Entries (dataHash E p n loc) (dataHash E p n loc)
  keyFn : ∀ e n f, loadFunction E e n = .ok (some (.key f)) → F f
  fits : ∀ p n loc, Fits p n loc → Fit p n loc

/-- The same, with the nodes of providers. -/
structure Asking (E : Env) (R : Rel) (F : LkFn → Prop) (Fit : Prov → Str → Option Loc → Prop) : Prop extends
  Core R, Invoking E R F Fit

/-- `C` is preserved by the operations that resolving entries is made of. -/
structure Resolving (C : Rel) : Prop extends Core C where
  doWithScope : ∀ {α} {m m' : M α} sc, C α m m' → C α (doWithScope sc m) (doWithScope sc m')
  newProvider : ∀ e, C Prov (newProvider e) (newProvider e)

/-- `R` is preserved by the operations that the evaluator is made of; `C` is a relation that is preserved by the
operations that resolving a configuration is made of. -/
structure Closed (E : Env) (R C : Rel) : Prop extends Core R where
  coreC : Core C
  doWithScope : ∀ {α} {m m' : M α} sc, C α m m' → C α (doWithScope sc m) (doWithScope sc m')
  newProvider : ∀ e, C Prov (newProvider e) (newProvider e)
  forConfig : ∀ {α} {m m' : M α}, C α m m' → R α (forConfig m) (forConfig m')
  forData : ∀ {α} {m m' : M α}, R α m m' → R α (forData m) (forData m')
  forLookupOptions : ∀ {α} {m m' : M α}, R α m m' → R α (forLookupOptions m) (forLookupOptions m')
  doRedacted : ∀ {α} {m m' : M α}, R α m m' → R α (doRedacted m) (doRedacted m')
  loadOnce : ∀ p n, R (Option Fn) (loadOnce E p n) (loadOnce E p n)
  emitDig : ∀ n ps, R Unit (emit (.dig n ps)) (emit (.dig n ps))
  emitKey : ∀ n o k, R Unit (emit (.key n o k)) (emit (.key n o k))
  dataHash : ∀ p n loc, Fits p n loc → R Entries (dataHash E p n loc) (dataHash E p n loc)
  loadConfig : ∀ path, R Cfg (loadConfig E path) (loadConfig E path)
  putConfig : ∀ path rc, R Unit (putConfig path rc) (putConfig path rc)
  setLuOpts : ∀ lo, R Unit (setLuOpts lo) (setLuOpts lo)
  setStrategy : ∀ st, R Unit (setStrategy st) (setStrategy st)
  putCache : ∀ k v, R Unit (putCache k v) (putCache k v)

/-- The recursive calls are related, as far as `F` allows lookup functions. -/
structure RecRelOn (R C : Rel) (F : LkFn → Prop) (rec rec' : Rec) : Prop where
  lookup : ∀ k o, R _ (rec.lookup k o) (rec'.lookup k o)
  interp : ∀ v, R _ (rec.interp v true) (rec'.interp v true)
  interpC : ∀ v, C _ (rec.interp v false) (rec'.interp v false)
  lkOn : ∀ f o k, F f → R _ (rec.lk f o k) (rec'.lk f o k)

/-- The recursive calls are related. -/
abbrev RecRel (R C : Rel) (rec rec' : Rec) : Prop := RecRelOn R C (fun _ => True) rec rec'

theorem RecRelOn.lk {R C : Rel} {rec rec' : Rec} (h : RecRelOn R C (fun _ => True) rec rec') (f : LkFn) (o : Entries) (k : Str) :
    R _ (rec.lk f o k) (rec'.lk f o k) := h.lkOn f o k trivial

theorem lift_ok {α : Type} (a : α) : (lift (.ok a) : M α) = pure a := rfl
theorem lift_panic {α : Type} (e : Err) : (lift (.panic e) : M α) = panic e := rfl

theorem PlainCore.lift {R : Rel} (h : PlainCore R) {α : Type} (r : Res α) : R α (lift r) (lift r) := by
  cases r
  · exact h.pure _
  · exact h.panic _

theorem CoreV.lift {R : Rel} (h : CoreV R) {α : Type} (r : Res α) : R α (lift r) (lift r) := h.toCore.lift r

section base
variable {R : Rel} (h : Base R)
include h

theorem Base.loadOnce (E : Env) (p : Prov) (n : Str) : R _ (loadOnce E p n) (loadOnce E p n) := by
  unfold Hiera.loadOnce
  refine h.bind (h.lift _) (fun f => h.bind h.view (fun v => ?_))
  by_cases hm : p.id ∈ v.loaded
  · simp only [hm, ↓reduceIte]; exact h.pure _
  · simp only [hm, ↓reduceIte]
    refine h.bind ?_ (fun _ => h.bind (h.update _) (fun _ => h.pure _))
    cases f
    · exact h.report _ (by grows)
    · exact h.pure _

theorem Base.callHash (E : Env) (p : Prov) (n : Str) (o : Entries) : R _ (callHash E p n o) (callHash E p n o) := by
  unfold Hiera.callHash
  by_cases h1 : n = "yaml_data".toList
  · simp only [h1, ↓reduceIte]
    exact h.bind (h.update _) (fun _ => h.lift _)
  · by_cases h2 : n = "json_data".toList
    · simp only [h2, ↓reduceIte]
      exact h.bind (h.update _) (fun _ => h.lift _)
    · simp only [h1, h2, ↓reduceIte]
      refine h.bind (h.loadOnce E p n) (fun f => ?_)
      rcases f with _ | (f | f | f)
      · exact h.pure _
      · refine h.bind (h.update _) (fun _ => h.bind (h.lift _) (fun r => ?_))
        rcases r with _ | r
        · exact h.pure _
        · cases r <;> exact h.pure _
      · exact h.panic _
      · exact h.panic _

theorem Base.dataHash (E : Env) (p : Prov) (n : Str) (loc : Option Loc) :
    R _ (dataHash E p n loc) (dataHash E p n loc) := by
  unfold Hiera.dataHash
  refine h.bind h.view (fun v => ?_)
  cases assoc (p, match loc with | some l => l.resolved | none => []) v.hashes with
  | some a => exact h.pure _
  | none => exact h.bind (h.callHash E p n _) (fun _ => h.bind (h.update _) (fun _ => h.pure _))

theorem Base.loadConfig (E : Env) (path : Str) : R _ (loadConfig E path) (loadConfig E path) := by
  unfold Hiera.loadConfig
  refine h.bind h.view (fun v => ?_)
  cases (assoc path v.parsed).or (elsewhere E v path) with
  | some a => exact h.pure _
  | none =>
    by_cases hl : path ∈ v.locked
    · simp only [hl, ↓reduceIte]; exact h.hang
    · simp only [hl, ↓reduceIte]
      refine h.bind (h.update _) (fun _ => ?_)
      cases newCfg E.cfg path (E.readYaml path) with
      | ok c => exact h.bind (h.update _) (fun _ => h.pure _)
      | panic e => exact h.bind (h.update _) (fun _ => h.panic _)

theorem Base.forData {α} {m m' : M α} (hm : R α m m') : R α (forData m) (forData m') := by
  unfold Hiera.forData
  refine h.bind h.view (fun v => ?_)
  by_cases hd : v.ic.mode = .data
  · simp only [hd, ↓reduceIte]; exact hm
  · simp only [hd, ↓reduceIte]; exact h.withCopy _ _ rfl hm

theorem Base.forLookupOptions {α} {m m' : M α} (hm : R α m m') : R α (forLookupOptions m) (forLookupOptions m') := by
  unfold Hiera.forLookupOptions
  refine h.bind h.view (fun v => ?_)
  by_cases hd : v.ic.mode = .lookupOptions
  · simp only [hd, ↓reduceIte]; exact hm
  · simp only [hd, ↓reduceIte]; exact h.withCopy _ _ rfl hm

theorem Base.doWithScope {α} {m m' : M α} (sc : Scope) (hm : R α m m') : R α (doWithScope sc m) (doWithScope sc m') := by
  unfold Hiera.doWithScope
  exact h.bind h.view (fun v => h.bind (h.update _) (fun _ => h.bind hm (fun _ => h.bind (h.update _) (fun _ => h.pure _))))

theorem Base.newProvider (e : Entry) : R _ (newProvider e) (newProvider e) :=
  h.bind h.view (fun v => h.bind (h.update _) (fun _ => h.pure _))

theorem Base.asking (E : Env) : Asking E R (fun _ => True) (fun _ _ _ => True) where
  toCore := h.toCoreV.toCore
  loadOnce := h.loadOnce E
  emitDig := fun _ _ => h.update _
  emitKey := fun _ _ _ => h.update _
  dataHash := fun p n loc _ => h.dataHash E p n loc
  keyFn := fun _ _ _ _ => trivial
  fits := fun _ _ _ _ => trivial

theorem Base.closedWith {C : Rel} (E : Env) (coreC : Core C)
    (hs : ∀ {α} {m m' : M α} sc, C α m m' → C α (Hiera.doWithScope sc m) (Hiera.doWithScope sc m'))
    (hp : ∀ e, C Prov (Hiera.newProvider e) (Hiera.newProvider e))
    (hf : ∀ {α} {m m' : M α}, C α m m' → R α (forConfig m) (forConfig m')) : Closed E R C where
  toCore := h.toCoreV.toCore
  coreC := coreC
  forConfig := hf
  forData := h.forData
  forLookupOptions := h.forLookupOptions
  doRedacted := h.doRedacted
  doWithScope := hs
  newProvider := hp
  loadOnce := h.loadOnce E
  emitDig := fun _ _ => h.update _
  emitKey := fun _ _ _ => h.update _
  dataHash := fun p n loc _ => h.dataHash E p n loc
  loadConfig := h.loadConfig E
  putConfig := fun _ _ => h.update _
  setLuOpts := fun _ => h.update _
  setStrategy := fun _ => h.update _
  putCache := fun _ _ => h.update _

theorem Base.closed (E : Env) (hf : ∀ {α} {m m' : M α}, R α m m' → R α (forConfig m) (forConfig m')) : Closed E R R :=
  h.closedWith E h.toCoreV.toCore h.doWithScope h.newProvider hf
end base

section core
variable {R : Rel} (h : PlainCore R)
include h

theorem PlainCore.digLoop (ps : List Part) (v : Option Value) : R _ (digLoop ps v) (digLoop ps v) := by
  induction ps generalizing v with
  | nil => exact h.pure _
  | cons p ps ih =>
    refine h.bind (h.node _ rfl ?_) (fun r => ?_)
    · unfold digSeg
      cases v.bind (digSegment p) with
      | some w => exact h.bind (h.mark _ (by marks)) (fun _ => h.pure _)
      | none => exact h.bind (h.mark _ (by marks)) (fun _ => h.pure _)
    · cases r
      · exact h.pure _
      · exact ih _

theorem PlainCore.dig (k : Key) (v : Option Value) : R _ (dig k v) (dig k v) := by
  unfold Hiera.dig
  by_cases hl : k.parts.length = 1
  · simp only [hl, ↓reduceIte]; exact h.pure _
  · simp only [hl, ↓reduceIte]; exact h.node _ rfl (h.digLoop _ _)

variable {rec rec' : Rec} {a : Bool} (hi : ∀ v, R _ (rec.interp v a) (rec'.interp v a))
include hi

theorem PlainCore.interpInScope (x : Str) : R _ (interpInScope rec x a) (interpInScope rec' x a) := by
  unfold Hiera.interpInScope
  refine h.bind (h.lift _) (fun k => h.viewBind (fun v mm => ?_))
  simp only [View.withMem]
  cases v.ic.scope.get k.root with
  | none => exact h.pure _
  | some x => exact h.bind (hi _) (fun r => h.dig _ _)

variable (hl : a = true → ∀ k o, R _ (rec.lookup k o) (rec'.lookup k o))
include hl

omit h hi hl in
theorem getMethod_false (x : Str) :
    getMethodAndData x false = .ok (.scope, x) ∨ getMethodAndData x false = .panic .methodsNotAllowed := by
  unfold getMethodAndData
  cases methodMatch x with
  | none => exact Or.inl rfl
  | some p => exact Or.inr rfl

theorem PlainCore.interpExpr (E : Env) (s : Str) (e : Str) (st : IplState) :
    R _ (interpExpr E rec s a e st) (interpExpr E rec' s a e st) := by
  unfold Hiera.interpExpr
  by_cases he : emptyInterpolation (trimSpace e) = true
  · simp only [he, ↓reduceIte]; exact h.pure _
  · simp only [he, ↓reduceIte]
    cases a with
    | false =>
      rcases getMethod_false (trimSpace e) with hm | hm <;> rw [hm]
      · have hb : ∀ f : Method × Str → M IplState,
            (Hiera.lift (.ok (Method.scope, trimSpace e)) >>= f) = f (Method.scope, trimSpace e) := fun _ => rfl
        rw [hb, hb]
        have hn : ¬ (Method.scope.isAlias = true ∧ '%' :: '{' :: e ++ ['}'] ≠ s) := fun h => nomatch h.1
        rw [if_neg hn, if_neg hn]
        exact h.bind (h.interpInScope hi _) (fun _ => h.pure _)
      · exact h.panic _
    | true =>
    refine h.bind (h.lift _) (fun md => ?_)
    by_cases hp : md.1.isAlias = true ∧ '%' :: '{' :: e ++ ['}'] ≠ s
    · rw [if_pos hp, if_pos hp]; exact h.panic _
    · rw [if_neg hp, if_neg hp]
      obtain ⟨m, d⟩ := md
      have look : R IplState
          (do let k ← Hiera.lift (newKey d)
              let v ← rec.lookup k []
              if m.isAlias = true then Pure.pure { st with result := v, method := m }
              else Pure.pure { st with out := st.out ++ E.textOf v, method := m })
          (do let k ← Hiera.lift (newKey d)
              let v ← rec'.lookup k []
              if m.isAlias = true then Pure.pure { st with result := v, method := m }
              else Pure.pure { st with out := st.out ++ E.textOf v, method := m }) := by
        refine h.bind (h.lift _) (fun k => h.bind (hl rfl _ _) (fun v => ?_))
        by_cases hm : m.isAlias = true
        · rw [if_pos hm]; exact h.pure _
        · rw [if_neg hm]; exact h.pure _
      cases m
      · exact h.bind (h.interpInScope hi _) (fun _ => h.pure _)
      · exact look
      · exact look
      · exact look
      · exact h.pure _

theorem PlainCore.interpToks (E : Env) (s : Str) (ts : List Tok) (st : IplState) :
    R _ (interpToks E rec s a ts st) (interpToks E rec' s a ts st) := by
  induction ts generalizing st with
  | nil => exact h.pure _
  | cons t ts ih =>
    cases t with
    | chr c => exact ih _
    | expr e => exact h.bind (h.interpExpr hi hl E _ _ _) (fun st' => ih _)

theorem PlainCore.interpStr (E : Env) (s : Str) : R _ (interpStr E rec s a) (interpStr E rec' s a) := by
  unfold Hiera.interpStr
  by_cases hm : hasMarker s = true
  · simp only [hm, ↓reduceIte]
    exact h.bind (h.node _ rfl (h.bind (h.interpToks hi hl E _ _ _) (fun _ => h.pure _))) (fun _ => h.pure _)
  · simp only [hm]; exact h.pure _

mutual
theorem PlainCore.interp (E : Env) (v : Value) : R _ (interp E rec a v) (interp E rec' a v) := by
  match v with
  | .str s => simp only [Hiera.interp]; exact h.interpStr hi hl E s
  | .arr es =>
    simp only [Hiera.interp]
    refine h.bind (PlainCore.interpList E es) (fun r => ?_)
    by_cases hc : r.2 = true
    · rw [if_pos hc]; exact h.pure _
    · rw [if_neg hc]; exact h.pure _
  | .map es =>
    simp only [Hiera.interp]
    refine h.bind (PlainCore.interpMap E [] es) (fun r => ?_)
    by_cases hc : r.2 = true
    · rw [if_pos hc]; exact h.pure _
    · rw [if_neg hc]; exact h.pure _
  | .null => simp only [Hiera.interp]; exact h.pure _
  | .bool _ => simp only [Hiera.interp]; exact h.pure _
  | .int _ => simp only [Hiera.interp]; exact h.pure _
  | .sensitive _ => simp only [Hiera.interp]; exact h.pure _
  | .opaque _ => simp only [Hiera.interp]; exact h.pure _
theorem PlainCore.interpList (E : Env) (vs : List Value) : R _ (interpList E rec a vs) (interpList E rec' a vs) := by
  match vs with
  | [] => simp only [Hiera.interpList]; exact h.pure _
  | v :: vs =>
    simp only [Hiera.interpList]
    exact h.bind (PlainCore.interp E v) (fun r => h.bind (PlainCore.interpList E vs) (fun rs => h.pure _))
theorem PlainCore.interpMap (E : Env) (cp : Entries) (es : List (Value × Value)) :
    R _ (interpMap E rec a cp es) (interpMap E rec' a cp es) := by
  match es with
  | [] => simp only [Hiera.interpMap]; exact h.pure _
  | (k, v) :: es =>
    simp only [Hiera.interpMap]
    exact h.bind (PlainCore.interp E k) (fun rk => h.bind (PlainCore.interp E v) (fun rv =>
      h.bind (PlainCore.interpMap E _ es) (fun rs => h.pure _)))
end

theorem PlainCore.interpolate (E : Env) (v : Value) : R _ (interpolate E rec a v) (interpolate E rec' a v) :=
  h.bind (h.interp hi hl E v) (fun _ => h.pure _)
end core

theorem bind_congr_ok {α β : Type} {m : M α} {x y : α → M β} {s : St}
    (h : ∀ a t, m s = some (.ok a, t) → x a t = y a t) : (m >>= x) s = (m >>= y) s := by
  have hb : ∀ z : α → M β, (m >>= z) s = (match m s with
      | none => none | some (.ok a, s') => z a s' | some (.panic e, s') => some (.panic e, s')) := fun _ => rfl
  rw [hb, hb]
  cases hm : m s with
  | none => rfl
  | some o =>
    obtain ⟨a | e, t⟩ := o
    · exact h a t hm
    · rfl

theorem ok_of_bind {α β : Type} {m : M α} {f : α → M β} {s t : St} {b : β} (h : (m >>= f) s = some (.ok b, t)) :
    ∃ a u, m s = some (.ok a, u) ∧ f a u = some (.ok b, t) := by
  have hb : (m >>= f) s = (match m s with
      | none => none | some (.ok a, s') => f a s' | some (.panic e, s') => some (.panic e, s')) := rfl
  rw [hb] at h
  cases hm : m s with
  | none => rw [hm] at h; cases h
  | some o =>
    obtain ⟨a | e, u⟩ := o
    · rw [hm] at h; exact ⟨a, u, rfl, h⟩
    · rw [hm] at h; cases h

theorem PlainCore.mergeM {R : Rel} (h : PlainCore R) {α : Type} (st : Strategy) (vs : List α) (f f' : α → M (Option Value))
    (hf : ∀ a ∈ vs, R _ (f a) (f' a)) : R _ (mergeM st vs f) (mergeM st vs f') := by
  have loop : ∀ (memo : Option Value) (vs : List α), (∀ a ∈ vs, R _ (f a) (f' a)) →
      R _ (mergeLoop st f memo vs) (mergeLoop st f' memo vs) := by
    intro memo vs hf
    induction vs generalizing memo with
    | nil => exact h.pure _
    | cons v vs ih =>
      refine h.bind (hf v List.mem_cons_self) (fun r => ?_)
      cases r
      · exact ih _ (fun a ha => hf a (List.mem_cons_of_mem _ ha))
      · cases memo <;> exact ih _ (fun a ha => hf a (List.mem_cons_of_mem _ ha))
  have first : ∀ (vs : List α), (∀ a ∈ vs, R _ (f a) (f' a)) → R _ (firstLoop f vs) (firstLoop f' vs) := by
    intro vs hf
    induction vs with
    | nil => exact h.pure _
    | cons v vs ih =>
      refine h.bind (hf v List.mem_cons_self) (fun r => ?_)
      cases r
      · exact ih (fun a ha => hf a (List.mem_cons_of_mem _ ha))
      · exact h.pure _
  have fin : ∀ r : Option Value, R _
      (match r with | some v => (do Hiera.report (.result v); Pure.pure (some v)) | none => Pure.pure none : M (Option Value))
      (match r with | some v => (do Hiera.report (.result v); Pure.pure (some v)) | none => Pure.pure none : M (Option Value)) := by
    intro r
    cases r
    · exact h.pure _
    · exact h.bind (h.mark _ (by marks)) (fun _ => h.pure _)
  have one : ∀ v ∈ vs, R _ (do match ← f v with | some x => Pure.pure (some (st.single x)) | none => Pure.pure none)
      (do match ← f' v with | some x => Pure.pure (some (st.single x)) | none => Pure.pure none) := by
    intro v hv
    refine h.bind (hf v hv) (fun r => ?_)
    cases r <;> exact h.pure _
  unfold Hiera.mergeM
  match vs with
  | [] => cases st <;> exact h.pure _
  | [v] =>
    cases st
    · exact hf v List.mem_cons_self
    · exact one v List.mem_cons_self
    · exact one v List.mem_cons_self
    · exact one v List.mem_cons_self
  | v :: w :: vs =>
    cases st
    · exact h.bind (first _ hf) fin
    · exact h.node _ rfl (h.bind (loop _ _ hf) fin)
    · exact h.node _ rfl (h.bind (loop _ _ hf) fin)
    · exact h.node _ rfl (h.bind (loop _ _ hf) fin)

section asking
variable {E : Env} {R C : Rel} {F : LkFn → Prop} {Fit : Prov → Str → Option Loc → Prop} (h : Invoking E R F Fit)
include h

variable {rec rec' : Rec} (hr : RecRelOn R C F rec rec')
include hr

omit hr in
theorem Invoking.reportResult (k : Str) (v : Option Value) : R _ (reportResult k v) (reportResult k v) := by
  cases v <;> exact h.bind (h.mark _ (by marks)) (fun _ => h.pure _)

omit hr in
theorem Invoking.interpolate (hi : ∀ v, R _ (rec.interp v true) (rec'.interp v true))
    (hl : ∀ k o, R _ (rec.lookup k o) (rec'.lookup k o)) (v : Value) :
    R _ (Hiera.interpolate E rec true v) (Hiera.interpolate E rec' true v) :=
  h.toPlainCore.interpolate hi (fun _ => hl) E v

omit hr in
/-- The function that has been loaded is the one that `LoadFunction` gives. -/
theorem Invoking.loadOnceBind {α : Type} (p : Prov) (n : Str) {g g' : Option Fn → M α}
    (hg : ∀ r, loadFunction E p.entry n = .ok r → R α (g r) (g' r)) : R α (Hiera.loadOnce E p n >>= g) (Hiera.loadOnce E p n >>= g') := by
  cases hf : loadFunction E p.entry n with
  | panic e =>
    have e1 : ∀ x : Option Fn → M α, (Hiera.loadOnce E p n >>= x) = Hiera.panic e := by
      intro x; funext s
      unfold Hiera.loadOnce
      rw [hf]; rfl
    rw [e1 g, e1 g']; exact h.panic _
  | ok r =>
    have e1 : ∀ x : Option Fn → M α, (Hiera.loadOnce E p n >>= x) = (Hiera.loadOnce E p n >>= fun _ => x r) := by
      intro x; funext s
      have : ∀ a s', Hiera.loadOnce E p n s = some (.ok a, s') → a = r := by
        intro a s' hs
        unfold Hiera.loadOnce at hs
        rw [hf] at hs
        have hv : (Hiera.lift (.ok r) >>= fun f => Hiera.view >>= fun v => if p.id ∈ v.loaded then Pure.pure f else
            (reportUnresolved n f >>= fun _ => markLoaded p.id >>= fun _ => Pure.pure f) : M (Option Fn)) s =
            (if p.id ∈ s.v.loaded then Pure.pure r else (reportUnresolved n r >>= fun _ => markLoaded p.id >>= fun _ => Pure.pure r) : M (Option Fn)) s := rfl
        rw [hv] at hs
        split at hs
        · cases hs; rfl
        · obtain ⟨_, u, _, hu⟩ := ok_of_bind hs
          cases hu; rfl
      exact bind_congr_ok (fun a s' hs => by rw [this a s' hs])
    rw [e1 g, e1 g']
    exact h.bind (h.loadOnce p n) (fun _ => hg r hf)

theorem Invoking.provLookup (p : Prov) (loc : Option Loc) (k : Key)
    (hfit : ∀ n, p.entry.function = some (.dataHash, n) → Fit p n loc) :
    R _ (provLookup E rec p loc k) (provLookup E rec' p loc k) := by
  unfold Hiera.provLookup
  rcases hfn : p.entry.function with _ | ⟨kind, n⟩
  · exact h.panic _
  · cases kind with
    | dataHash =>
      refine h.bind (h.dataHash p n loc (hfit n hfn)) (fun hs => ?_)
      cases Entries.getS hs k.root with
      | none => exact h.reportResult _ _
      | some x => exact h.bind (h.interpolate hr.interp hr.lookup x) (fun r => h.reportResult _ _)
    | dataDig =>
      refine h.bind (h.loadOnce p n) (fun f => ?_)
      rcases f with _ | (f | f | f)
      · exact h.reportResult _ _
      · exact h.panic _
      · refine h.bind (h.emitDig _ _) (fun _ => h.bind (h.lift _) (fun r => ?_))
        cases r
        · exact h.reportResult _ _
        · exact h.bind (h.mark _ (by marks)) (fun _ => h.pure _)
      · exact h.panic _
    | lookupKey =>
      show R _ (lookupKeyLookup E rec p n loc k) (lookupKeyLookup E rec' p n loc k)
      unfold lookupKeyLookup
      by_cases h1 : n = "environment".toList
      · simp only [h1, ↓reduceIte]
        exact h.bind (h.emitKey _ _ _) (fun _ => h.reportResult _ _)
      · by_cases h2 : n = "scope".toList
        · simp only [h1, h2, ↓reduceIte]
          exact h.bind (h.emitKey _ _ _) (fun _ => h.viewBind (fun v mm => h.reportResult _ _))
        · simp only [h1, h2, ↓reduceIte]
          refine h.loadOnceBind p n (fun f hfn => ?_)
          rcases f with _ | (f | f | f)
          · exact h.reportResult _ _
          · exact h.panic _
          · exact h.panic _
          · exact h.bind (h.emitKey _ _ _) (fun _ => h.bind (hr.lkOn _ _ _ (h.keyFn _ _ _ hfn)) (fun r => h.reportResult _ _))

omit hr in
theorem Invoking.mergeM {α : Type} (st : Strategy) (vs : List α) (f f' : α → M (Option Value))
    (hf : ∀ a ∈ vs, R _ (f a) (f' a)) : R _ (mergeM st vs f) (mergeM st vs f') := h.toPlainCore.mergeM st vs f f' hf

theorem Invoking.invokeWithLocation (p : Prov) (k : Key) (l : Loc)
    (hfit : ∀ n, p.entry.function = some (.dataHash, n) → Fit p n (some l)) :
    R _ (invokeWithLocation E rec p k l) (invokeWithLocation E rec' p k l) := by
  refine h.node _ rfl ?_
  by_cases he : l.exists_ = true
  · rw [if_pos he, if_pos he]; exact h.provLookup hr _ _ _ hfit
  · rw [if_neg he, if_neg he]; exact h.bind (h.mark _ (by marks)) (fun _ => h.pure _)

/-- What is below the node of a provider. -/
theorem Invoking.askLocations (k : Key) (st : Strategy) (p : Prov) :
    R _ (match p.entry.locations with
      | none => Hiera.provLookup E rec p none k
      | some [] => Pure.pure none
      | some [l] => Hiera.invokeWithLocation E rec p k l
      | some ls => Hiera.mergeM st ls (Hiera.invokeWithLocation E rec p k))
     (match p.entry.locations with
      | none => Hiera.provLookup E rec' p none k
      | some [] => Pure.pure none
      | some [l] => Hiera.invokeWithLocation E rec' p k l
      | some ls => Hiera.mergeM st ls (Hiera.invokeWithLocation E rec' p k)) := by
  rcases hls : p.entry.locations with _ | ls
  · exact h.provLookup hr _ _ _ (fun n hn => h.fits _ _ _ ⟨hn, by rw [hls]; rfl⟩)
  · match ls with
    | [] => exact h.pure _
    | [l] => exact h.invokeWithLocation hr _ _ _ (fun n hn => h.fits _ _ _ ⟨hn, by rw [hls]; rfl⟩)
    | l :: l' :: ls => exact h.mergeM _ _ _ _ (fun a _ => h.invokeWithLocation hr _ _ _ (fun n hn => h.fits _ _ _ ⟨hn, by rw [hls]; rfl⟩))

omit hr in
theorem Invoking.currentStrategy : R _ currentStrategy currentStrategy := by
  refine h.viewBind (fun v mm => ?_)
  simp only [View.withMem]
  cases v.ic.strategy
  · exact h.panic _
  · exact h.pure _

omit hr in
theorem Invoking.mergeOption (cli : Option Value) (lo : Option Entries) : R _ (mergeOption cli lo) (mergeOption cli lo) := by
  unfold Hiera.mergeOption
  cases cli with
  | some o => exact h.bind (h.mark _ (by marks)) (fun _ => h.pure _)
  | none =>
    cases lo with
    | none => exact h.pure _
    | some m =>
      cases hm : Entries.getS m "merge".toList with
      | none => simp only [hm]; exact h.pure _
      | some o => simp only [hm]; exact h.bind (h.mark _ (by marks)) (fun _ => h.pure _)
end asking

section asking
variable {E : Env} {R C : Rel} {F : LkFn → Prop} {Fit : Prov → Str → Option Loc → Prop} (h : Asking E R F Fit)
  {rec rec' : Rec} (hr : RecRelOn R C F rec rec')
include h hr

theorem Asking.mergeLocations (k : Key) (st : Strategy) (p : Prov) :
    R _ (mergeLocations E rec k st p) (mergeLocations E rec' k st p) :=
  h.withNode _ (h.askLocations hr k st p)

theorem Asking.mergeHierarchy (k : Key) (ps : List Prov) (st : Strategy) :
    R _ (mergeHierarchy E rec k ps st) (mergeHierarchy E rec' k ps st) :=
  h.mergeM _ _ _ _ (fun p _ => h.mergeLocations hr _ _ _)

end asking

section resolving
variable {E : Env} {C : Rel} (h : Resolving C)
include h

variable {rec rec' : Rec} (hi : ∀ v, C _ (rec.interp v false) (rec'.interp v false))
include hi

theorem Resolving.interpFalse (v : Value) : C _ (Hiera.interp E rec false v) (Hiera.interp E rec' false v) :=
  h.interp hi (fun h => nomatch h) E v

theorem Resolving.interpolateFalse (v : Value) : C _ (Hiera.interpolate E rec false v) (Hiera.interpolate E rec' false v) :=
  h.interpolate hi (fun h => nomatch h) E v

theorem Resolving.interpInScopeFalse (x : Str) : C _ (Hiera.interpInScope rec x false) (Hiera.interpInScope rec' x false) :=
  h.interpInScope hi x

theorem Resolving.interpCfg (s : Str) : C _ (interpCfg E rec s) (interpCfg E rec' s) := by
  unfold Hiera.interpCfg
  refine h.bind (h.interpStr hi (fun h => nomatch h) E s) (fun r => ?_)
  cases r.1
  · exact h.panic _
  · exact h.pure _

theorem Resolving.resolveFunction (d : Option Entry) (e : Entry) :
    C _ (resolveFunction E rec d e) (resolveFunction E rec' d e) := by
  unfold Hiera.resolveFunction
  rcases hf : e.function with _ | ⟨k, n⟩
  · rcases d with _ | d
    · exact h.pure _
    · rcases hd : d.function with _ | f
      · simp only [hd]; exact h.panic _
      · simp only [hd]; exact h.pure _
  · exact h.bind (h.interpCfg hi n) (fun _ => h.pure _)

theorem Resolving.resolveDataDir (d : Option Entry) (e : Entry) :
    C _ (resolveDataDir E rec d e) (resolveDataDir E rec' d e) := by
  unfold Hiera.resolveDataDir
  refine h.bind (h.resolveFunction hi d e) (fun e => ?_)
  by_cases hd : e.dataDir = []
  · simp only [hd, ↓reduceIte]
    cases d <;> exact h.pure _
  · simp only [hd, ↓reduceIte]
    exact h.bind (h.interpCfg hi _) (fun _ => h.pure _)

theorem Resolving.resolvePluginDir (d : Option Entry) (e : Entry) :
    C _ (resolvePluginDir E rec d e) (resolvePluginDir E rec' d e) := by
  unfold Hiera.resolvePluginDir
  refine h.bind ?_ (fun _ => h.pure _)
  unfold pluginDirOf
  by_cases hd : e.pluginDir = []
  · simp only [hd, ↓reduceIte]
    cases d <;> exact h.pure _
  · simp only [hd, ↓reduceIte]
    exact h.interpCfg hi _

theorem Resolving.resolveOptions (d : Option Entry) (e : Entry) :
    C _ (resolveOptions E rec d e) (resolveOptions E rec' d e) := by
  unfold Hiera.resolveOptions
  rcases hf : e.options with _ | os
  · cases d <;> exact h.pure _
  · rcases os with _ | ⟨o, os⟩
    · exact h.pure _
    · refine h.bind (h.interpolateFalse hi _) (fun r => ?_)
      rcases r with _ | w
      · exact h.panic _
      · cases w <;> first | exact h.panic _ | exact h.pure _

theorem Resolving.resolveMapped (key t d : Str) (mvs : List Value) :
    C _ (resolveMapped E rec key t d mvs) (resolveMapped E rec' key t d mvs) := by
  induction mvs with
  | nil => exact h.pure _
  | cons mv mvs ih =>
    exact h.viewBind (fun v mm => h.bind (h.doWithScope _ (h.bind (h.interpCfg hi _) (fun _ => h.pure _)))
      (fun _ => h.bind ih (fun _ => h.pure _)))

theorem Resolving.resolveLoc (d : Str) (l : Loc) : C _ (l.resolve E rec d) (l.resolve E rec' d) := by
  cases l with
  | path o _ _ => exact h.bind (h.interpCfg hi _) (fun _ => h.pure _)
  | glob o => exact h.bind (h.interpCfg hi _) (fun _ => h.pure _)
  | uri o _ => exact h.bind (h.interpCfg hi _) (fun _ => h.pure _)
  | mapped a k t =>
    refine h.bind (h.interpInScopeFalse hi _) (fun r => ?_)
    rcases r with _ | w
    · exact h.pure _
    · cases w <;> first | exact h.resolveMapped hi _ _ _ _ | exact h.pure _

theorem Resolving.resolveLocs (d : Str) (ls : List Loc) : C _ (resolveLocs E rec d ls) (resolveLocs E rec' d ls) := by
  induction ls with
  | nil => exact h.pure _
  | cons l ls ih => exact h.bind (h.resolveLoc hi d l) (fun _ => h.bind ih (fun _ => h.pure _))

theorem Resolving.resolveLocations (e : Entry) : C _ (resolveLocations E rec e) (resolveLocations E rec' e) := by
  unfold Hiera.resolveLocations
  cases e.locations with
  | none => exact h.pure _
  | some ls => exact h.bind (h.resolveLocs hi _ ls) (fun _ => h.pure _)

theorem Resolving.resolveEntry (d : Option Entry) (e : Entry) : C _ (e.resolve E rec d) (e.resolve E rec' d) := by
  unfold Entry.resolve
  exact h.bind (h.resolveFunction hi _ _) (fun _ => h.bind (h.resolveDataDir hi _ _) (fun _ =>
    h.bind (h.resolvePluginDir hi _ _) (fun _ => h.bind (h.resolveOptions hi _ _) (fun _ => h.resolveLocations hi _))))

theorem Resolving.createProvidersLoop (d : Entry) (es : List Entry) :
    C _ (createProvidersLoop E rec d es) (createProvidersLoop E rec' d es) := by
  induction es with
  | nil => exact h.pure _
  | cons e es ih =>
    exact h.bind (h.resolveEntry hi _ _) (fun _ => h.bind (h.newProvider _) (fun _ => h.bind ih (fun _ => h.pure _)))

theorem Resolving.createProviders (c : Cfg) (es : List Entry) :
    C _ (createProviders E rec c es) (createProviders E rec' c es) :=
  h.bind (h.resolveEntry hi _ _) (fun _ => h.createProvidersLoop hi _ _)
end resolving

section closed
variable {E : Env} {R C : Rel} (h : Closed E R C)
include h

variable {rec rec' : Rec} (hr : RecRel R C rec rec')
include hr

theorem Closed.interp (v : Value) : R _ (interp E rec true v) (interp E rec' true v) :=
  h.toPlainCore.interp hr.interp (fun _ => hr.lookup) E v

theorem Closed.interpolate (v : Value) : R _ (Hiera.interpolate E rec true v) (Hiera.interpolate E rec' true v) :=
  h.toCore.interpolate hr.interp (fun _ => hr.lookup) E v

omit hr in
theorem Closed.resolving : Resolving C where
  toCore := h.coreC
  doWithScope := h.doWithScope
  newProvider := h.newProvider

omit hr in
theorem Closed.asking : Asking E R (fun _ => True) Fits where
  toCore := h.toCore
  loadOnce := h.loadOnce
  emitDig := h.emitDig
  emitKey := h.emitKey
  dataHash := h.dataHash
  keyFn := fun _ _ _ _ => trivial
  fits := fun _ _ _ h => h

omit hr in
theorem Closed.mergeM {α : Type} (st : Strategy) (vs : List α) (f f' : α → M (Option Value))
    (hf : ∀ a, R _ (f a) (f' a)) : R _ (mergeM st vs f) (mergeM st vs f') := h.asking.mergeM st vs f f' (fun a _ => hf a)

theorem Closed.mergeLocations (k : Key) (st : Strategy) (p : Prov) :
    R _ (mergeLocations E rec k st p) (mergeLocations E rec' k st p) := h.asking.mergeLocations hr k st p

theorem Closed.mergeHierarchy (k : Key) (ps : List Prov) (st : Strategy) :
    R _ (mergeHierarchy E rec k ps st) (mergeHierarchy E rec' k ps st) := h.asking.mergeHierarchy hr k ps st

theorem Closed.resolve (c : Cfg) (m : Str) : R _ (resolve E rec c m) (resolve E rec' c m) :=
  h.bind (h.forConfig (h.coreC.bind (h.resolving.createProviders hr.interpC _ _) (fun _ =>
    h.coreC.bind (h.resolving.createProviders hr.interpC _ _) (fun _ => h.coreC.pure _))))
    (fun pd => h.bind (h.forLookupOptions (h.withNode _ (h.mergeM _ _ _ _ (fun p => h.mergeLocations hr _ _ _))))
      (fun v => h.pure _))

theorem Closed.config (path m : Str) : R _ (config E rec path m) (config E rec' path m) := by
  unfold Hiera.config
  refine h.viewBind (fun v mm => ?_)
  simp only [View.withMem]
  cases assoc (if path = [] then E.configPath else path) v.configs with
  | some rc => exact h.pure _
  | none => exact h.bind (h.loadConfig _) (fun c => h.bind (h.resolve hr _ _) (fun rc =>
      h.bind (h.putConfig _ _) (fun _ => h.pure _)))

omit hr in
theorem Closed.setMergeStrategy (cli : Option Value) (lo : Option Entries) :
    R _ (setMergeStrategy cli lo) (setMergeStrategy cli lo) := by
  unfold Hiera.setMergeStrategy
  refine h.bind ?_ (fun o => h.bind (h.setLuOpts _) (fun _ => h.bind (h.lift _) (fun _ => h.setStrategy _)))
  exact h.asking.mergeOption cli lo

omit hr in
theorem Closed.lookupAndConvert {f f' : M (Option Value)} (hf : R _ f f') :
    R _ (lookupAndConvert E f) (lookupAndConvert E f') := by
  unfold Hiera.lookupAndConvert
  refine h.viewBind (fun v mm => h.bind (h.lift _) (fun c => h.bind ?_ (fun r => h.lift _)))
  unfold maybeRedacted
  rcases c with _ | ⟨t, as⟩
  · exact hf
  · by_cases hs : E.isSensitive t = true
    · simp only [hs, ↓reduceIte]; exact h.doRedacted hf
    · simp only [hs]; exact hf

omit hr in
theorem Closed.currentStrategy : R _ currentStrategy currentStrategy := h.asking.currentStrategy

theorem Closed.configAt (path : Str) (opts : Entries) (key m : Str) :
    R _ (configAt E rec path opts key m) (configAt E rec' path opts key m) := by
  unfold Hiera.configAt
  refine h.bind (h.config hr _ _) (fun cfg => h.bind (h.lift _) (fun k => h.viewBind (fun v mm => ?_)))
  simp only [View.withMem]
  cases v.ic.mode
  · exact h.forData (h.withNode _ (h.bind (h.setMergeStrategy _ _) (fun _ => h.lookupAndConvert
      (h.bind h.currentStrategy (fun st => h.mergeHierarchy hr _ _ _)))))
  · exact h.pure _
  · exact h.bind h.currentStrategy (fun st => h.mergeHierarchy hr _ _ _)

theorem Closed.muxLookup (opts : Entries) (key : Str) :
    R _ (muxLookup E rec opts key) (muxLookup E rec' opts key) := by
  unfold Hiera.muxLookup
  cases E.muxFns with
  | none => exact h.pure _
  | some fs =>
    exact h.bind (h.forLookupOptions (h.mergeM _ _ _ _ (fun f => hr.lk _ _ _))) (fun lo => h.forData
      (h.bind (h.lift _) (fun k => h.withNode _ (h.bind (h.setMergeStrategy _ _) (fun _ => h.lookupAndConvert
        (h.bind h.currentStrategy (fun st => h.mergeM _ _ _ _ (fun f => hr.lk _ _ _))))))))

omit hr in
theorem Closed.yamlLookup (key : Str) : R _ (yamlLookup E key) (yamlLookup E key) := by
  unfold Hiera.yamlLookup
  refine h.viewBind (fun v mm => ?_)
  simp only [View.withMem]
  cases assoc "yaml::data".toList v.cache with
  | some d => cases d <;> first | exact h.panic _ | exact h.pure _
  | none => exact h.bind (h.lift _) (fun es => h.bind (h.putCache _ _) (fun _ => h.pure _))

theorem Closed.moduleLookup (opts : Entries) (key : Str) :
    R _ (moduleLookup E rec opts key) (moduleLookup E rec' opts key) := by
  unfold Hiera.moduleLookup
  cases beforeColons [] key with
  | none => exact h.pure _
  | some n =>
    cases n with
    | nil => exact h.pure _
    | cons c cs =>
      refine h.bind (h.lift _) (fun mp => h.withNode _ ?_)
      cases mp with
      | none => exact h.bind (h.report _ (by grows)) (fun _ => h.pure _)
      | some cp => exact h.configAt hr _ _ _ _

theorem Closed.runProg (p : Prog) : R _ (runProg E rec p) (runProg E rec' p) := by
  induction p with
  | ret v => exact h.pure _
  | panic e => exact h.panic _
  | interpolate v k ih => exact h.bind (h.interpolate hr _) (fun r => ih _)
  | lookup key o k ih => exact h.bind (h.lift _) (fun kk => h.bind (hr.lookup _ _) (fun r => ih _))
  | explain t k ih => exact h.bind (h.report _ (by grows)) (fun _ => ih)
  | cache key x k ih => exact h.viewBind (fun v mm => h.bind (h.putCache _ _) (fun _ => ih _))
  | cachedValue key k ih => exact h.viewBind (fun v mm => ih _)
  | scopeGet key k ih => exact h.viewBind (fun v mm => ih _)

theorem Closed.callLk (f : LkFn) (opts : Entries) (key : Str) :
    R _ (callLk E rec f opts key) (callLk E rec' f opts key) := by
  cases f with
  | config => exact h.configAt hr _ _ _ _
  | mux => exact h.muxLookup hr _ _
  | env => exact h.pure _
  | scope => exact h.viewBind (fun v mm => h.pure _)
  | yaml => exact h.yamlLookup _
  | module => exact h.moduleLookup hr _ _
  | custom f => exact h.runProg hr _
  | notFunction => exact h.pure _

theorem Closed.lookup (key : Key) (opts : Entries) :
    R _ (lookup E rec key opts) (lookup E rec' key opts) := by
  unfold Hiera.lookup
  by_cases hk : key.root = "lookup_options".toList
  · rw [if_pos hk, if_pos hk]
    exact h.withNode _ (h.bind (h.report _ (by grows)) (fun _ => h.pure _))
  · rw [if_neg hk, if_neg hk]
    refine h.bind (h.callLk hr _ _ _) (fun r => ?_)
    cases r with
    | none => exact h.pure _
    | some x => exact h.forData (h.bind (h.interpolate hr _) (fun r => h.dig _ _))

/-- The relation carries over to one more unfolding. -/
theorem Closed.step : RecRel R C (step E rec) (step E rec') :=
  ⟨h.lookup hr, fun v => h.interp hr v, fun v => h.resolving.interpFalse hr.interpC v, fun f o k _ => h.callLk hr f o k⟩
end closed

/-- A relation that the evaluator's operations preserve, and that holds for computations that do not terminate, relates
every evaluation to itself. -/
theorem Closed.eval {E : Env} {R C : Rel} (h : Closed E R C) (hh : ∀ α, R α hang hang) (hc : ∀ α, C α hang hang) (n : Nat) :
    RecRel R C (eval E n) (eval E n) := by
  induction n with
  | zero => exact ⟨fun _ _ => hh _, fun _ => hh _, fun _ => hc _, fun _ _ _ _ => hh _⟩
  | succ n ih => exact h.step ih

end Hiera
