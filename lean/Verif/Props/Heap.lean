/- C60: resolving an entry leaves the entries that it is made from as they were, also in memory. -/
import Verif.Model.Heap
import Verif.Lemmas.Fuel
import Verif.Lemmas.World

set_option autoImplicit false

namespace Hiera
open Value World

/-- Nothing that was there before has changed, except for the struct at `e`. -/
structure Spec.Only (e : Nat) (h h' : Heap) : Prop where
  next : h.next ≤ h'.next
  cells : ∀ a, a < h.next → a ≠ e → h'.cells a = h.cells a
  arrays : ∀ a, a < h.next → h'.arrays a = h.arrays a

/-- Nothing that was there before has changed. -/
structure Spec.Untouched (h h' : Heap) : Prop where
  next : h.next ≤ h'.next
  cells : ∀ a, a < h.next → h'.cells a = h.cells a
  arrays : ∀ a, a < h.next → h'.arrays a = h.arrays a

/-- There is an entry at the address, and its locations are in the memory. -/
def Spec.Entry.At (h : Heap) (e : Nat) : Prop :=
  e < h.next ∧ ∀ s, (h.cells e).locations = some s → s.arr < h.next ∧ s.len ≤ (h.arrays s.arr).length

/-- The defaults in memory and as a value are the same. -/
def Spec.SameDefaults (h : Heap) (e : Nat) : Option Nat → Option Entry → Prop
  | none, none => True
  | some d, some p => d < h.next ∧ d ≠ e ∧ p.function = (h.cells d).function ∧ p.dataDir = (h.cells d).dataDir ∧
      p.pluginDir = (h.cells d).pluginDir ∧ p.options = (h.cells d).options
  | _, _ => False

open Spec

theorem Spec.Only.refl (e : Nat) (h : Heap) : Only e h h := ⟨Nat.le_refl _, fun _ _ _ => rfl, fun _ _ => rfl⟩

theorem Spec.Only.trans {e : Nat} {a b c : Heap} (h : Only e a b) (h' : Only e b c) : Only e a c :=
  ⟨Nat.le_trans h.next h'.next,
   fun x hx hn => (h'.cells x (Nat.lt_of_lt_of_le hx h.next) hn).trans (h.cells x hx hn),
   fun x hx => (h'.arrays x (Nat.lt_of_lt_of_le hx h.next)).trans (h.arrays x hx)⟩

theorem Spec.Untouched.trans {a b c : Heap} (h : Untouched a b) (h' : Untouched b c) : Untouched a c :=
  ⟨Nat.le_trans h.next h'.next,
   fun x hx => (h'.cells x (Nat.lt_of_lt_of_le hx h.next)).trans (h.cells x hx),
   fun x hx => (h'.arrays x (Nat.lt_of_lt_of_le hx h.next)).trans (h.arrays x hx)⟩

/-- `m` does to the entry in memory what `p` does to the value. -/
def Acts (e : Nat) (d : Option Nat) (pd : Option Entry) (m : HM Unit) (p : Entry → M Entry) : Prop :=
  ∀ h s, Entry.At h e → SameDefaults h e d pd →
    match p (h.entry e) s with
    | none => m h s = none
    | some (.panic er, t) => ∃ h', m h s = some ((.panic er, t), h') ∧ Only e h h'
    | some (.ok x, t) => ∃ h', m h s = some ((.ok (), t), h') ∧ Only e h h' ∧ Entry.At h' e ∧ h'.entry e = x

theorem SameDefaults.keep {h h' : Heap} {e : Nat} {d : Option Nat} {pd : Option Entry} (ho : Only e h h')
    (hd : SameDefaults h e d pd) : SameDefaults h' e d pd := by
  cases d with
  | none => cases pd <;> exact hd
  | some d =>
    cases pd with
    | none => exact hd
    | some p =>
      obtain ⟨h1, h2, h3⟩ := hd
      refine ⟨Nat.lt_of_lt_of_le h1 ho.next, h2, ?_⟩
      rw [ho.cells d h1 h2]
      exact h3

theorem HM.bind_none {α β : Type} {m : HM α} {f : α → HM β} {h : Heap} {s : St} (hm : m h s = none) : (m >>= f) h s = none := by
  show (match m h s with | none => none | some ((.ok a, s'), h') => f a h' s' | some ((.panic e, s'), h') => some ((.panic e, s'), h')) = none
  rw [hm]

theorem HM.bind_ok {α β : Type} {m : HM α} {f : α → HM β} {h h' : Heap} {s t : St} {a : α}
    (hm : m h s = some ((.ok a, t), h')) : (m >>= f) h s = f a h' t := by
  show (match m h s with | none => none | some ((.ok a, s'), h') => f a h' s' | some ((.panic e, s'), h') => some ((.panic e, s'), h')) = _
  rw [hm]

theorem HM.bind_panic {α β : Type} {m : HM α} {f : α → HM β} {h h' : Heap} {s t : St} {e : Err}
    (hm : m h s = some ((.panic e, t), h')) : (m >>= f) h s = some ((.panic e, t), h') := by
  show (match m h s with | none => none | some ((.ok a, s'), h') => f a h' s' | some ((.panic e, s'), h') => some ((.panic e, s'), h')) = _
  rw [hm]

theorem HM.bind_assoc {α β γ : Type} (m : HM α) (f : α → HM β) (g : β → HM γ) : (m >>= f) >>= g = m >>= fun a => f a >>= g := by
  funext h s
  cases hm : m h s with
  | none => rw [HM.bind_none hm, HM.bind_none (HM.bind_none hm)]
  | some x =>
    obtain ⟨⟨a | er, t⟩, h'⟩ := x
    · rw [HM.bind_ok hm]
      cases hf : f a h' t with
      | none => rw [HM.bind_none hf, HM.bind_none ((HM.bind_ok hm).trans hf)]
      | some y =>
        obtain ⟨⟨b | er, u⟩, h''⟩ := y
        · rw [HM.bind_ok hf, HM.bind_ok ((HM.bind_ok hm).trans hf)]
        · rw [HM.bind_panic hf, HM.bind_panic ((HM.bind_ok hm).trans hf)]
    · rw [HM.bind_panic hm, HM.bind_panic (HM.bind_panic hm)]

theorem HM.read_bind {α β : Type} (g : Heap → α) (f : α → HM β) (h : Heap) (s : St) : (HM.read g >>= f) h s = f (g h) h s := rfl

theorem Acts.seq {e : Nat} {d : Option Nat} {pd : Option Entry} {m m' : HM Unit} {p p' : Entry → M Entry}
    (h1 : Acts e d pd m p) (h2 : Acts e d pd m' p') : Acts e d pd (m >>= fun _ => m') (fun x => p x >>= p') := by
  intro h s ha hd
  beta_reduce
  have g1 := h1 h s ha hd
  cases hp : p (h.entry e) s with
  | none =>
    rw [hp] at g1
    rw [Hiera.bind_none hp]
    exact HM.bind_none g1
  | some x =>
    obtain ⟨x | er, t⟩ := x
    · rw [hp] at g1
      obtain ⟨h', hm, ho, ha', he⟩ := g1
      rw [Hiera.bind_ok hp, HM.bind_ok hm]
      have g2 := h2 h' t ha' (SameDefaults.keep ho hd)
      rw [he] at g2
      cases hp' : p' x t with
      | none => rw [hp'] at g2; exact g2
      | some y =>
        obtain ⟨y | er, u⟩ := y
        · rw [hp'] at g2
          obtain ⟨h'', hm', ho', r⟩ := g2
          exact ⟨h'', hm', ho.trans ho', r⟩
        · rw [hp'] at g2
          obtain ⟨h'', hm', ho'⟩ := g2
          exact ⟨h'', hm', ho.trans ho'⟩
    · rw [hp] at g1
      obtain ⟨h', hm, ho⟩ := g1
      rw [Hiera.bind_panic hp]
      exact ⟨h', HM.bind_panic hm, ho⟩

/-- The result of an assignment. -/
def Heap.set (h : Heap) (a : Nat) (c : EntryCell) : Heap := { h with cells := fun b => if b = a then c else h.cells b }

theorem Heap.set_only (h : Heap) (e : Nat) (c : EntryCell) : Only e h (h.set e c) :=
  ⟨Nat.le_refl _, fun a _ hn => by simp [Heap.set, hn], fun _ _ => rfl⟩

theorem Heap.set_at (h : Heap) (e : Nat) (c : EntryCell) (ha : Entry.At h e) (hl : c.locations = (h.cells e).locations) :
    Entry.At (h.set e c) e := by
  refine ⟨ha.1, fun s hs => ?_⟩
  have : (h.cells e).locations = some s := by
    rw [← hl, ← hs]; simp [Heap.set]
  exact ha.2 s this

theorem HM.assign_run (h : Heap) (s : St) (e : Nat) (f : EntryCell → EntryCell) :
    HM.assign e f h s = some ((.ok (), s), h.set e (f (h.cells e))) := rfl

/-- The value of a struct with these locations. -/
def EntryCell.value (c : EntryCell) (ls : Option (List Loc)) : Entry :=
  { root := c.root, dataDir := c.dataDir, pluginDir := c.pluginDir, pluginFile := c.pluginFile, options := c.options,
    function := c.function, name := c.name, locations := ls }

/-- After an assignment that does not concern the locations. -/
theorem assigned {e : Nat} {h : Heap} {s : St} (ha : Entry.At h e) (f : EntryCell → EntryCell)
    (hl : (f (h.cells e)).locations = (h.cells e).locations) (x : Entry)
    (hx : x = (f (h.cells e)).value (h.entry e).locations) :
    ∃ h', HM.assign e f h s = some ((.ok (), s), h') ∧ Only e h h' ∧ Entry.At h' e ∧ h'.entry e = x := by
  refine ⟨_, HM.assign_run h s e f, h.set_only e _, h.set_at e _ ha hl, ?_⟩
  rw [hx]
  simp only [Heap.entry, Heap.set, ↓reduceIte, hl]
  rfl

theorem HM.of_ok {α : Type} {m : M α} {h : Heap} {s t : St} {a : α} (hm : m s = some (.ok a, t)) :
    HM.of m h s = some ((.ok a, t), h) := by unfold HM.of; rw [hm]; rfl
theorem HM.of_panic {α : Type} {m : M α} {h : Heap} {s t : St} {e : Err} (hm : m s = some (.panic e, t)) :
    HM.of m h s = some ((.panic e, t), h) := by unfold HM.of; rw [hm]; rfl
theorem HM.of_none {α : Type} {m : M α} {h : Heap} {s : St} (hm : m s = none) : HM.of m h s = none := by
  unfold HM.of; rw [hm]; rfl

/-- A computation without memory, then an assignment. -/
theorem ofAssign {α : Type} {e : Nat} {h : Heap} {s : St} (ha : Entry.At h e) (m : M α) (f : α → EntryCell → EntryCell)
    (hl : ∀ a c, (f a c).locations = c.locations) (g : α → Entry)
    (hx : ∀ a, g a = (f a (h.cells e)).value (h.entry e).locations) :
    match (m >>= fun a => (pure (g a) : M Entry)) s with
    | none => (HM.of m >>= fun a => HM.assign e (f a)) h s = none
    | some (.panic er, t) => ∃ h', (HM.of m >>= fun a => HM.assign e (f a)) h s = some ((.panic er, t), h') ∧ Only e h h'
    | some (.ok x, t) => ∃ h', (HM.of m >>= fun a => HM.assign e (f a)) h s = some ((.ok (), t), h') ∧ Only e h h' ∧ Entry.At h' e ∧ h'.entry e = x := by
  cases hm : m s with
  | none => rw [Hiera.bind_none hm]; exact HM.bind_none (HM.of_none hm)
  | some x =>
    obtain ⟨a | er, t⟩ := x
    · rw [Hiera.bind_ok hm, HM.bind_ok (HM.of_ok hm)]
      exact assigned ha (f a) (hl a _) (g a) (hx a)
    · rw [Hiera.bind_panic hm, HM.bind_panic (HM.of_panic hm)]
      exact ⟨h, rfl, Only.refl _ _⟩

theorem does_function (E : Env) (rec : Rec) (e : Nat) (d : Option Nat) (pd : Option Entry) :
    Acts e d pd (resolveFunctionH E rec d e) (resolveFunction E rec pd) := by
  intro h s ha hd
  unfold resolveFunctionH resolveFunction
  rw [HM.read_bind]
  have hf : (h.entry e).function = (h.cells e).function := rfl
  rw [hf]
  cases hc : (h.cells e).function with
  | none =>
    cases d with
    | none =>
      cases pd with
      | none => exact assigned ha _ rfl _ rfl
      | some p => exact absurd hd id
    | some d =>
      cases pd with
      | none => exact absurd hd id
      | some p =>
        simp only
        rw [HM.read_bind, ← hd.2.2.1]
        cases hp : p.function with
        | none => exact ⟨h, rfl, Only.refl _ _⟩
        | some f => exact assigned ha _ rfl _ rfl
  | some kn =>
    obtain ⟨k, n⟩ := kn
    exact ofAssign ha _ (fun n' c => { c with function := some (k, n') }) (fun _ _ => rfl)
      (fun n' => { h.entry e with function := some (k, n') }) (fun _ => rfl)

theorem does_dataDir' (E : Env) (rec : Rec) (e : Nat) (d : Option Nat) (pd : Option Entry) :
    Acts e d pd (do
      let c ← HM.read (fun h => h.cells e)
      if c.dataDir = [] then
        match d with
        | none => HM.assign e (fun c => { c with dataDir := E.cfg.defaultDataDir })
        | some d => do
          let dc ← HM.read (fun h => h.cells d)
          HM.assign e (fun c => { c with dataDir := dc.dataDir })
      else do
        let s ← HM.of (interpCfg E rec c.dataDir)
        HM.assign e (fun c => { c with dataDir := s }))
    (fun x => if x.dataDir = [] then
        match pd with
        | none => pure { x with dataDir := E.cfg.defaultDataDir }
        | some d => pure { x with dataDir := d.dataDir }
      else do
        let d ← interpCfg E rec x.dataDir
        pure { x with dataDir := d }) := by
  intro h s ha hd
  beta_reduce
  rw [HM.read_bind]
  have hf : (h.entry e).dataDir = (h.cells e).dataDir := rfl
  rw [hf]
  by_cases hc : (h.cells e).dataDir = []
  · simp only [hc, ↓reduceIte]
    cases d with
    | none =>
      cases pd with
      | none => exact assigned ha _ rfl _ rfl
      | some p => exact absurd hd id
    | some d =>
      cases pd with
      | none => exact absurd hd id
      | some p =>
        simp only
        rw [HM.read_bind, ← hd.2.2.2.1]
        exact assigned ha _ rfl _ rfl
  · simp only [hc, ↓reduceIte]
    exact ofAssign ha _ (fun n' c => { c with dataDir := n' }) (fun _ _ => rfl)
      (fun n' => { h.entry e with dataDir := n' }) (fun _ => rfl)

theorem does_dataDir (E : Env) (rec : Rec) (e : Nat) (d : Option Nat) (pd : Option Entry) :
    Acts e d pd (resolveDataDirH E rec d e) (resolveDataDir E rec pd) :=
  (does_function E rec e d pd).seq (does_dataDir' E rec e d pd)

theorem does_pluginDir (E : Env) (rec : Rec) (e : Nat) (d : Option Nat) (pd : Option Entry) :
    Acts e d pd (resolvePluginDirH E rec d e) (resolvePluginDir E rec pd) := by
  have h1 : Acts e d pd (pluginDirH E rec d e) (fun x => do
      let p ← pluginDirOf E rec pd x
      pure { x with pluginDir := p }) := by
    intro h s ha hd
    beta_reduce
    unfold pluginDirH pluginDirOf
    rw [HM.read_bind]
    have hf : (h.entry e).pluginDir = (h.cells e).pluginDir := rfl
    rw [hf]
    by_cases hc : (h.cells e).pluginDir = []
    · simp only [hc, ↓reduceIte]
      cases d with
      | none =>
        cases pd with
        | none => exact assigned ha _ rfl _ rfl
        | some p => exact absurd hd id
      | some d =>
        cases pd with
        | none => exact absurd hd id
        | some p =>
          simp only
          rw [HM.read_bind, ← hd.2.2.2.2.1]
          exact assigned ha _ rfl _ rfl
    · simp only [hc, ↓reduceIte]
      exact ofAssign ha _ (fun n' c => { c with pluginDir := n' }) (fun _ _ => rfl)
        (fun n' => { h.entry e with pluginDir := n' }) (fun _ => rfl)
  have h2 : Acts e d pd (do
      let c ← HM.read (fun h => h.cells e)
      if isAbs c.pluginDir then pure ()
      else HM.assign e (fun c => { c with pluginDir := join c.root c.pluginDir }))
      (fun x => pure { x with pluginDir := if isAbs x.pluginDir then x.pluginDir else join x.root x.pluginDir }) := by
    intro h s ha hd
    beta_reduce
    rw [HM.read_bind]
    by_cases hc : isAbs (h.cells e).pluginDir = true
    · rw [if_pos hc]
      refine ⟨h, rfl, Only.refl _ _, ha, ?_⟩
      have hf : (h.entry e).pluginDir = (h.cells e).pluginDir := rfl
      rw [hf, if_pos hc]
      rfl
    · rw [if_neg hc]
      refine assigned ha _ rfl _ ?_
      have hf : (h.entry e).pluginDir = (h.cells e).pluginDir := rfl
      rw [hf, if_neg hc]
      rfl
  intro h s ha hd
  have h3 := h1.seq h2 h s ha hd
  have e1 : (pluginDirOf E rec pd (h.entry e) >>= fun p => (pure { h.entry e with pluginDir := p } : M Entry)) >>=
      (fun x => (pure { x with pluginDir := if isAbs x.pluginDir then x.pluginDir else join x.root x.pluginDir } : M Entry)) =
      resolvePluginDir E rec pd (h.entry e) := by
    unfold resolvePluginDir
    funext u
    rw [bind_def, bind_def, bind_def]
    cases pluginDirOf E rec pd (h.entry e) u with
    | none => rfl
    | some x => obtain ⟨a | er, t⟩ := x <;> rfl
  beta_reduce at h3
  rw [e1] at h3
  exact h3

/-- What the first part of `resolveOptions` does. -/
def optionsPart (E : Env) (rec : Rec) (pd : Option Entry) (x : Entry) : M Entry :=
  match x.options with
    | none => match pd with
      | some d => pure { x with options := d.options }
      | none => pure x
    | some [] => pure x
    | some (o :: os) => do
      let r ← interpolate E rec false (.map (o :: os))
      match r with
      | some (.map os') => pure { x with options := some os' }
      | _ => panic .typeAssertion

theorem does_options (E : Env) (rec : Rec) (e : Nat) (d : Option Nat) (pd : Option Entry) :
    Acts e d pd (resolveOptionsH E rec d e) (resolveOptions E rec pd) := by
  have h1 : Acts e d pd (optionsH E rec d e) (optionsPart E rec pd) := by
    intro h s ha hd
    unfold optionsH optionsPart
    rw [HM.read_bind]
    have hf : (h.entry e).options = (h.cells e).options := rfl
    rw [hf]
    cases hc : (h.cells e).options with
    | none =>
      cases d with
      | none =>
        cases pd with
        | none => exact ⟨h, rfl, Only.refl _ _, ha, rfl⟩
        | some p => exact absurd hd id
      | some d =>
        cases pd with
        | none => exact absurd hd id
        | some p =>
          simp only
          rw [HM.read_bind, ← hd.2.2.2.2.2]
          exact assigned ha _ rfl _ rfl
    | some os =>
      cases os with
      | nil => exact ⟨h, rfl, Only.refl _ _, ha, rfl⟩
      | cons o os =>
        simp only
        cases hm : interpolate E rec false (.map (o :: os)) s with
        | none => rw [Hiera.bind_none hm]; exact HM.bind_none (HM.of_none hm)
        | some x =>
          obtain ⟨a | er, t⟩ := x
          · rw [Hiera.bind_ok hm, HM.bind_ok (HM.of_ok hm)]
            cases a with
            | none => exact ⟨h, rfl, Only.refl _ _⟩
            | some v =>
              cases v with
              | map os' => exact assigned ha _ rfl _ rfl
              | _ => exact ⟨h, rfl, Only.refl _ _⟩
          · rw [Hiera.bind_panic hm, HM.bind_panic (HM.of_panic hm)]
            exact ⟨h, rfl, Only.refl _ _⟩
  have h2 : Acts e d pd (do
      let c ← HM.read (fun h => h.cells e)
      match c.options with
      | none => HM.assign e (fun c => { c with options := some [] })
      | some _ => pure ()) (fun x => pure { x with options := some (x.options.getD []) }) := by
    intro h s ha hd
    beta_reduce
    rw [HM.read_bind]
    have hf : (h.entry e).options = (h.cells e).options := rfl
    rw [hf]
    cases hc : (h.cells e).options with
    | none => exact assigned ha _ rfl _ rfl
    | some o =>
      refine ⟨h, rfl, Only.refl _ _, ha, ?_⟩
      simp only [Heap.entry, hc]
      rfl
  intro h s ha hd
  have h3 := h1.seq h2 h s ha hd
  beta_reduce at h3
  have e1 : ∀ x : Entry, (optionsPart E rec pd x >>= fun x => (pure { x with options := some (x.options.getD []) } : M Entry)) =
      resolveOptions E rec pd x := by
    intro x
    obtain ⟨r, dd, pl, pf, op, fn, nm, ls⟩ := x
    unfold resolveOptions optionsPart
    cases op with
    | none => cases pd <;> rfl
    | some os =>
      cases os with
      | nil => rfl
      | cons o os =>
        simp only
        funext u
        rw [bind_def, bind_def, bind_def]
        cases interpolate E rec false (.map (o :: os)) u with
        | none => rfl
        | some x =>
          obtain ⟨a | er, t⟩ := x
          · cases a with
            | none => rfl
            | some v => cases v <;> rfl
          · rfl
  rw [e1] at h3
  exact h3

/-! ### Locations -/

/-- The loop that appends the locations: it keeps everything below `b`, where the new array is not, and the structs. -/
structure Appends (b : Nat) (h h' : Heap) : Prop where
  next : h.next ≤ h'.next
  cells : h'.cells = h.cells
  arrays : ∀ a, a < b → h'.arrays a = h.arrays a

theorem Appends.trans {b : Nat} {x y z : Heap} (h : Appends b x y) (h' : Appends b y z) : Appends b x z :=
  ⟨Nat.le_trans h.next h'.next, h'.cells.trans h.cells, fun a ha => (h'.arrays a ha).trans (h.arrays a ha)⟩

/-- A slice in the new part of the memory. -/
def NewSlice (b : Nat) (h : Heap) (s : LocSlice) : Prop := b ≤ s.arr ∧ s.arr < h.next ∧ s.len ≤ (h.arrays s.arr).length

theorem append_run (b : Nat) (h : Heap) (st : St) (s : LocSlice) (ls : List Loc) (hs : NewSlice b h s) :
    ∃ h' s', HM.append s ls h st = some ((.ok s', st), h') ∧ Appends b h h' ∧ NewSlice b h' s' ∧ h'.elems s' = h.elems s ++ ls := by
  obtain ⟨h1, h2, h3⟩ := hs
  unfold HM.append
  by_cases hc : s.len + ls.length ≤ (h.arrays s.arr).length
  · rw [if_pos hc]
    refine ⟨_, _, rfl, ⟨Nat.le_refl _, rfl, fun a ha => ?_⟩, ⟨h1, h2, ?_⟩, ?_⟩
    · have : a ≠ s.arr := by omega
      simp [this]
    · simp; omega
    · simp only [Heap.elems, ↓reduceIte]
      rw [List.take_append_of_le_length (by simp; omega), List.take_of_length_le (by simp; omega)]
  · rw [if_neg hc]
    refine ⟨_, _, rfl, ⟨Nat.le_succ _, rfl, fun a ha => ?_⟩, ⟨?_, Nat.lt_succ_self _, ?_⟩, ?_⟩
    · have : a ≠ h.next := by omega
      simp [this]
    · show b ≤ h.next; omega
    · simp; omega
    · simp only [Heap.elems, ↓reduceIte]
      rw [List.take_of_length_le (by simp; omega)]

theorem locs_run (E : Env) (rec : Rec) (root : Str) (b : Nat) (ls : List Loc) (h : Heap) (s : St) (ne : LocSlice) (hs : NewSlice b h ne) :
    match resolveLocs E rec root ls s with
    | none => resolveLocsH E rec root ne ls h s = none
    | some (.panic er, t) => ∃ h', resolveLocsH E rec root ne ls h s = some ((.panic er, t), h') ∧ Appends b h h'
    | some (.ok rs, t) => ∃ h' ne', resolveLocsH E rec root ne ls h s = some ((.ok ne', t), h') ∧ Appends b h h' ∧ NewSlice b h' ne' ∧
        h'.elems ne' = h.elems ne ++ rs := by
  induction ls generalizing h s ne with
  | nil => exact ⟨h, ne, rfl, ⟨Nat.le_refl _, rfl, fun _ _ => rfl⟩, hs, (List.append_nil _).symm⟩
  | cons l ls ih =>
    unfold resolveLocs resolveLocsH
    cases hm : l.resolve E rec root s with
    | none => rw [Hiera.bind_none hm]; exact HM.bind_none (HM.of_none hm)
    | some x =>
      obtain ⟨a | er, t⟩ := x
      · rw [Hiera.bind_ok hm, HM.bind_ok (HM.of_ok hm)]
        obtain ⟨h1, s1, g1, g2, g3, g4⟩ := append_run b h t ne a hs
        rw [HM.bind_ok g1]
        have g := ih h1 t s1 g3
        cases hr : resolveLocs E rec root ls t with
        | none => rw [hr] at g; rw [Hiera.bind_none hr]; exact g
        | some y =>
          obtain ⟨rs | er, u⟩ := y
          · rw [hr] at g
            obtain ⟨h2, s2, k1, k2, k3, k4⟩ := g
            rw [Hiera.bind_ok hr]
            exact ⟨h2, s2, k1, g2.trans k2, k3, by rw [k4, g4, List.append_assoc]⟩
          · rw [hr] at g
            obtain ⟨h2, k1, k2⟩ := g
            rw [Hiera.bind_panic hr]
            exact ⟨h2, k1, g2.trans k2⟩
      · rw [Hiera.bind_panic hm, HM.bind_panic (HM.of_panic hm)]
        exact ⟨h, rfl, ⟨Nat.le_refl _, rfl, fun _ _ => rfl⟩⟩

theorem does_locations (E : Env) (rec : Rec) (e : Nat) (d : Option Nat) (pd : Option Entry) :
    Acts e d pd (resolveLocationsH E rec e) (resolveLocations E rec) := by
  intro h s ha hd
  unfold resolveLocationsH resolveLocations
  rw [HM.read_bind]
  cases hc : (h.cells e).locations with
  | none =>
    have hf : (h.entry e).locations = none := by simp [Heap.entry, hc]
    rw [hf]
    exact ⟨h, rfl, Only.refl _ _, ha, rfl⟩
  | some ls =>
    have hf : (h.entry e).locations = some (h.elems ls) := by simp [Heap.entry, hc]
    rw [hf]
    simp only
    rw [HM.read_bind]
    have hmk : HM.makeSlice ls.len h s = some ((.ok ⟨h.next, 0⟩, s),
      { h with arrays := fun b => if b = h.next then List.replicate ls.len (.glob []) else h.arrays b, next := h.next + 1 }) := rfl
    rw [HM.bind_ok hmk]
    have hd1 : (h.entry e).dataDir = (h.cells e).dataDir := rfl
    have hd2 : (h.entry e).root = (h.cells e).root := rfl
    rw [hd1, hd2]
    generalize hroot : (if isAbs (h.cells e).dataDir = true then (h.cells e).dataDir else join (h.cells e).root (h.cells e).dataDir) = root
    generalize hh1 : ({ h with arrays := fun b => if b = h.next then List.replicate ls.len (.glob []) else h.arrays b, next := h.next + 1 } : Heap) = h1
    have b1 : Appends h.next h h1 := by
      subst hh1
      exact ⟨Nat.le_succ _, rfl, fun a ha => by have : a ≠ h.next := by omega
                                                simp [this]⟩
    have b2 : NewSlice h.next h1 ⟨h.next, 0⟩ := by
      subst hh1
      exact ⟨Nat.le_refl _, Nat.lt_succ_self _, Nat.zero_le _⟩
    have g := locs_run E rec root h.next (h.elems ls) h1 s ⟨h.next, 0⟩ b2
    have only : ∀ h2, Appends h.next h h2 → Only e h h2 := fun h2 k => ⟨k.next, fun a _ _ => by rw [k.cells], k.arrays⟩
    cases hr : resolveLocs E rec root (h.elems ls) s with
    | none => rw [hr] at g; rw [Hiera.bind_none hr]; exact HM.bind_none g
    | some y =>
      obtain ⟨rs | er, u⟩ := y
      · rw [hr] at g
        obtain ⟨h2, s2, k1, k2, k3, k4⟩ := g
        rw [Hiera.bind_ok hr, HM.bind_ok k1, HM.assign_run]
        have k := b1.trans k2
        refine ⟨_, rfl, (only h2 k).trans (h2.set_only e _), ⟨Nat.lt_of_lt_of_le ha.1 k.next, fun s hs => ?_⟩, ?_⟩
        · have : s2 = s := by simpa [Heap.set] using hs
          subst this
          exact ⟨k3.2.1, k3.2.2⟩
        · have k4' : h2.elems s2 = rs := by rw [k4]; simp [Heap.elems]
          simp only [Heap.entry, Heap.set, ↓reduceIte, k.cells, Option.map_some]
          rw [show ({ cells := fun b => if b = e then _ else h.cells b, arrays := h2.arrays, next := h2.next } : Heap).elems s2 = rs from k4']
      · rw [hr] at g
        obtain ⟨h2, k1, k2⟩ := g
        rw [Hiera.bind_panic hr]
        exact ⟨h2, HM.bind_panic k1, only h2 (b1.trans k2)⟩

/-! ### Entries -/

/-- C60: resolving an entry that is in memory gives what resolving its value gives, in a new struct, and everything that
was in the memory before — the entry itself, the defaults, the arrays of their locations — is as it was, also if there is
a panic. -/
theorem C60_resolve_refines (E : Env) (rec : Rec) (d : Option Nat) (e : Nat) (h : Heap) (s : St) (he : Entry.At h e)
    (hd : ∀ a, d = some a → a < h.next) :
    match (h.entry e).resolve E rec (d.map h.entry) s with
    | none => resolveH E rec d e h s = none
    | some (.panic er, t) => ∃ h', resolveH E rec d e h s = some ((.panic er, t), h') ∧ Untouched h h'
    | some (.ok x, t) => ∃ h', resolveH E rec d e h s = some ((.ok h.next, t), h') ∧ Untouched h h' ∧ Entry.At h' h.next ∧
        h'.entry h.next = x := by
  unfold resolveH
  rw [HM.read_bind]
  generalize hh1 : ({ h with cells := fun b => if b = h.next then h.cells e else h.cells b, next := h.next + 1 } : Heap) = h1
  have hnew : HM.newCell (h.cells e) h s = some ((.ok h.next, s), h1) := by rw [← hh1]; rfl
  rw [HM.bind_ok hnew]
  have c1 : h1.cells h.next = h.cells e := by rw [← hh1]; simp
  have c2 : ∀ a, a < h.next → h1.cells a = h.cells a := by
    intro a ha
    have : a ≠ h.next := by omega
    rw [← hh1]; simp [this]
  have c3 : h1.arrays = h.arrays := by rw [← hh1]
  have c4 : h1.next = h.next + 1 := by rw [← hh1]
  have a1 : Entry.At h1 h.next := by
    refine ⟨by omega, fun sl hs => ?_⟩
    rw [c1] at hs
    have := he.2 sl hs
    rw [c3, c4]
    exact ⟨by omega, this.2⟩
  have a2 : SameDefaults h1 h.next d (d.map h.entry) := by
    cases d with
    | none => exact trivial
    | some a =>
      have ha := hd a rfl
      refine ⟨by omega, by omega, ?_⟩
      rw [c2 a ha]
      exact ⟨rfl, rfl, rfl, rfl⟩
  have a3 : h1.entry h.next = h.entry e := by
    simp only [Heap.entry, c1]
    unfold Heap.elems
    rw [c3]
  have g : Acts h.next d (d.map h.entry) (do
      resolveFunctionH E rec d h.next
      resolveDataDirH E rec d h.next
      resolvePluginDirH E rec d h.next
      resolveOptionsH E rec d h.next
      resolveLocationsH E rec h.next) (Entry.resolve E rec (d.map h.entry)) :=
    ((does_function E rec h.next d (d.map h.entry)).seq ((does_dataDir E rec h.next d (d.map h.entry)).seq
    ((does_pluginDir E rec h.next d (d.map h.entry)).seq ((does_options E rec h.next d (d.map h.entry)).seq
      (does_locations E rec h.next d (d.map h.entry))))))
  replace g := g h1 s a1 a2
  rw [a3] at g
  have only : ∀ h2, Only h.next h1 h2 → Untouched h h2 := fun h2 k =>
    ⟨by have := k.next; omega, fun a ha => (k.cells a (by omega) (by omega)).trans (c2 a ha),
     fun a ha => (k.arrays a (by omega)).trans (by rw [c3])⟩
  have e1 : ∀ m : HM Unit, (m >>= fun _ => (pure h.next : HM Nat)) h1 s = match m h1 s with
      | none => none
      | some ((.ok _, t), h') => some ((.ok h.next, t), h')
      | some ((.panic er, t), h') => some ((.panic er, t), h') := by
    intro m
    cases hm : m h1 s with
    | none => exact HM.bind_none hm
    | some x =>
      obtain ⟨⟨a | er, t⟩, h'⟩ := x
      · exact HM.bind_ok hm
      · exact HM.bind_panic hm
  have assoc : (do
      resolveFunctionH E rec d h.next
      resolveDataDirH E rec d h.next
      resolvePluginDirH E rec d h.next
      resolveOptionsH E rec d h.next
      resolveLocationsH E rec h.next
      pure h.next : HM Nat) h1 s = ((do
      resolveFunctionH E rec d h.next
      resolveDataDirH E rec d h.next
      resolvePluginDirH E rec d h.next
      resolveOptionsH E rec d h.next
      resolveLocationsH E rec h.next : HM Unit) >>= fun _ => (pure h.next : HM Nat)) h1 s := by
    simp only [HM.bind_assoc]
  rw [assoc, e1]
  cases hr : (h.entry e).resolve E rec (d.map h.entry) s with
  | none => rw [hr] at g; rw [g]
  | some y =>
    obtain ⟨x | er, u⟩ := y
    · rw [hr] at g
      obtain ⟨h2, k1, k2, k3, k4⟩ := g
      rw [k1]
      exact ⟨h2, rfl, only h2 k2, k3, k4⟩
    · rw [hr] at g
      obtain ⟨h2, k1, k2⟩ := g
      rw [k1]
      exact ⟨h2, rfl, only h2 k2⟩

theorem Spec.Untouched.at {h h' : Heap} (u : Untouched h h') {e : Nat} (he : Entry.At h e) : Entry.At h' e := by
  refine ⟨Nat.lt_of_lt_of_le he.1 u.next, fun s hs => ?_⟩
  rw [u.cells e he.1] at hs
  obtain ⟨h1, h2⟩ := he.2 s hs
  exact ⟨Nat.lt_of_lt_of_le h1 u.next, by rw [u.arrays _ h1]; exact h2⟩

theorem Spec.Untouched.entry {h h' : Heap} (u : Untouched h h') {e : Nat} (he : Entry.At h e) : h'.entry e = h.entry e := by
  simp only [Heap.entry, u.cells e he.1]
  cases hc : (h.cells e).locations with
  | none => rfl
  | some s => simp only [Option.map_some, Heap.elems, u.arrays _ (he.2 s hc).1]

/-- One `Resolve`, whatever comes of it. -/
theorem resolve_untouched (E : Env) (rec : Rec) (d : Option Nat) (e : Nat) (h : Heap) (s : St) (he : Entry.At h e)
    (hd : ∀ a, d = some a → a < h.next) {r : Res Nat} {t : St} {h' : Heap} (hr : resolveH E rec d e h s = some ((r, t), h')) :
    Untouched h h' ∧ ∀ a, r = .ok a → a < h'.next := by
  have g := C60_resolve_refines E rec d e h s he hd
  cases hp : (h.entry e).resolve E rec (d.map h.entry) s with
  | none => rw [hp] at g; simp only at g; rw [g] at hr; cases hr
  | some y =>
    obtain ⟨x | er, u⟩ := y
    · rw [hp] at g
      obtain ⟨h2, k1, k2, k3, k4⟩ := g
      rw [k1] at hr
      cases hr
      exact ⟨k2, fun a ha => by cases ha; exact k3.1⟩
    · rw [hp] at g
      obtain ⟨h2, k1, k2⟩ := g
      rw [k1] at hr
      cases hr
      exact ⟨k2, fun a ha => by cases ha⟩

theorem resolveAll_untouched (E : Env) (rec : Rec) (d : Nat) (es : List Nat) (h : Heap) (s : St) (hd : d < h.next)
    (he : ∀ e ∈ es, Entry.At h e) {r : Res (List Nat)} {t : St} {h' : Heap}
    (hr : resolveAllH E rec d es h s = some ((r, t), h')) : Untouched h h' := by
  induction es generalizing h s r t h' with
  | nil => cases hr; exact ⟨Nat.le_refl _, fun _ _ => rfl, fun _ _ => rfl⟩
  | cons e es ih =>
    unfold resolveAllH at hr
    cases hm : resolveH E rec (some d) e h s with
    | none => rw [HM.bind_none hm] at hr; cases hr
    | some x =>
      obtain ⟨⟨a | er, u⟩, h1⟩ := x
      · obtain ⟨g1, g2⟩ := resolve_untouched E rec (some d) e h s (he e (by simp)) (by rintro a ⟨⟩; exact hd) hm
        rw [HM.bind_ok hm] at hr
        cases hn : resolveAllH E rec d es h1 u with
        | none => rw [HM.bind_none hn] at hr; cases hr
        | some y =>
          obtain ⟨⟨b | er, w⟩, h2⟩ := y
          · rw [HM.bind_ok hn] at hr
            cases hr
            exact g1.trans (ih h1 u (Nat.lt_of_lt_of_le hd g1.next) (fun e' he' => g1.at (he e' (by simp [he']))) hn)
          · rw [HM.bind_panic hn] at hr
            cases hr
            exact g1.trans (ih h1 u (Nat.lt_of_lt_of_le hd g1.next) (fun e' he' => g1.at (he e' (by simp [he']))) hn)
      · rw [HM.bind_panic hm] at hr
        cases hr
        exact (resolve_untouched E rec (some d) e h s (he e (by simp)) (by rintro a ⟨⟩; exact hd) hm).1

/-- C60: making the providers of a configuration leaves its entries, and the defaults, as they were, whatever comes of
it. (Two invocations that do so one after the other hence start from the same configuration.) -/
theorem C60_create_untouched (E : Env) (rec : Rec) (d : Nat) (es : List Nat) (h : Heap) (s : St) (hd : Entry.At h d)
    (he : ∀ e ∈ es, Entry.At h e) {r : Res (List Nat)} {t : St} {h' : Heap} (hr : createH E rec d es h s = some ((r, t), h')) :
    h'.entry d = h.entry d ∧ ∀ e ∈ es, h'.entry e = h.entry e := by
  have u : Untouched h h' := by
    unfold createH at hr
    cases hm : resolveH E rec none d h s with
    | none => rw [HM.bind_none hm] at hr; cases hr
    | some x =>
      obtain ⟨⟨a | er, u⟩, h1⟩ := x
      · obtain ⟨g1, g2⟩ := resolve_untouched E rec none d h s hd (by rintro a ⟨⟩) hm
        rw [HM.bind_ok hm] at hr
        exact g1.trans (resolveAll_untouched E rec a es h1 u (g2 a rfl) (fun e he' => g1.at (he e he')) hr)
      · rw [HM.bind_panic hm] at hr
        cases hr
        exact (resolve_untouched E rec none d h s hd (by rintro a ⟨⟩) hm).1
  exact ⟨u.entry hd, fun e hm => u.entry (he e hm)⟩

/-- A memory with defaults and an entry whose location depends on a variable. The array has room for another location. -/
def sampleHeap : Heap where
  cells := fun a => if a = 0 then { root := "/h".toList, dataDir := "data".toList, function := some (.dataHash, "yaml_data".toList) }
    else { root := "/h".toList, name := "a".toList, locations := some ⟨2, 1⟩ }
  arrays := fun a => if a = 2 then [.path "%{e}.yaml".toList [] false, .glob []] else []
  next := 3

/-- Not vacuous: the resolved entry has another location than the entry, which still has the one it had. -/
example : Entry.At sampleHeap 0 ∧ Entry.At sampleHeap 1 ∧
    (match createH (mk .null []) (eval (mk .null []) 2) 0 [1] sampleHeap (st [(s "e", s "1")]) with
     | some ((.ok [a], _), h') => decide ((h'.entry a).locations = some [.path "%{e}.yaml".toList "/h/data/1.yaml".toList false]) &&
        decide ((h'.entry 1).locations = some [.path "%{e}.yaml".toList [] false])
     | _ => false) = true := by
  refine ⟨⟨by decide, by rintro s ⟨⟩⟩, ⟨by decide, ?_⟩, by decide +kernel⟩
  rintro s ⟨⟩
  exact ⟨by decide, by decide⟩

end Hiera
