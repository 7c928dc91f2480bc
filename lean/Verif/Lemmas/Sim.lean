/- Runs from states that differ in their memories only: as long as the operations that look at the memories agree, so do
all computations. -/
import Verif.Lemmas.Rel
import Verif.Lemmas.Fuel

set_option autoImplicit false

namespace Hiera

def St.withMem (s : St) (x : Mem) : St := { s with v := s.v.withMem x }

/-- The same outcome, and states that differ in their memories only. `I` relates the memories before, and again after
anything but a panic; `Q` restricts the explainers. -/
def Sim (I : Mem → Mem → Prop) (Q : Option ExplOpts → Prop) : Rel := fun α m m' =>
  ∀ s x, Q s.on → I s.v.mem x →
    (m s = none ∧ m' (s.withMem x) = none) ∨
    (∃ (a : α) (t : St) (y : Mem), m s = some (.ok a, t) ∧ m' (s.withMem x) = some (.ok a, t.withMem y) ∧ t.on = s.on ∧ I t.v.mem y) ∨
    (∃ (e : Err) (t : St) (y : Mem), m s = some (.panic e, t) ∧ m' (s.withMem x) = some (.panic e, t.withMem y))

/-- What the memories have to allow. -/
structure SimOk (E : Env) (I : Mem → Mem → Prop) (Q : Option ExplOpts → Prop) : Prop where
  none : Q none
  forData : ∀ o, Q o → Q (explForData o)
  forOptions : ∀ o, Q o → Q (explForOptions o)
  emit : ∀ x y e, I x y → I { x with trace := x.trace ++ [e] } { y with trace := y.trace ++ [e] }
  loadOnce : ∀ p n, Sim I Q _ (loadOnce E p n) (loadOnce E p n)
  dataHash : ∀ p n loc, Fits p n loc → Sim I Q _ (dataHash E p n loc) (dataHash E p n loc)
  loadConfig : ∀ path, Sim I Q _ (loadConfig E path) (loadConfig E path)

section
variable {I : Mem → Mem → Prop} {Q : Option ExplOpts → Prop}

theorem Sim.update {f : View → View} (hf : ∀ v x, I v.mem x → ∃ y, f (v.withMem x) = (f v).withMem y ∧ I (f v).mem y) :
    Sim I Q Unit (update f) (update f) := by
  intro s x hq hi
  obtain ⟨y, h1, h2⟩ := hf s.v x hi
  refine .inr (.inl ⟨(), _, y, rfl, ?_, rfl, h2⟩)
  show some (Res.ok (), ({ (s.withMem x) with v := f (s.v.withMem x) } : St)) = _
  rw [h1]; rfl

theorem Sim.core : Core (Sim I Q) where
  pure := fun a s x hq hi => .inr (.inl ⟨a, s, x, rfl, rfl, rfl, hi⟩)
  bind := by
    intro α β m m' f f' hm hf s x hq hi
    rcases hm s x hq hi with ⟨h1, h2⟩ | ⟨a, t, y, h1, h2, h3, h4⟩ | ⟨e, t, y, h1, h2⟩
    · exact .inl ⟨bind_none h1, bind_none h2⟩
    · rw [bind_ok h1, bind_ok h2]
      rw [← h3] at hq ⊢
      exact hf a t y hq h4
    · exact .inr (.inr ⟨e, t, y, bind_panic h1, bind_panic h2⟩)
  panic := fun e s x _ _ => .inr (.inr ⟨e, s, x, rfl, rfl⟩)
  viewBind := by
    intro β f f' hf s x hq hi
    exact hf s.v x s x hq hi
  withNode := by
    intro α m m' n hm s x hq hi
    unfold Hiera.withNode
    by_cases ho : s.on.isNone = true
    · rw [if_pos ho, if_pos (show (s.withMem x).on.isNone = true from ho)]
      exact hm s x hq hi
    · rw [if_neg ho, if_neg (show ¬ (s.withMem x).on.isNone = true from ho)]
      show _ ∨ _ ∨ _
      simp only [show (s.withMem x).tree = s.tree from rfl]
      cases hp : s.tree.push n with
      | none => exact .inr (.inr ⟨.nilDeref, _, x, rfl, rfl⟩)
      | some tr =>
        rcases hm { s with tree := tr } x hq hi with ⟨h1, h2⟩ | ⟨a, t, y, h1, h2, h3, h4⟩ | ⟨e, t, y, h1, h2⟩
        · refine .inl ⟨?_, ?_⟩
          · simp only [h1]
          · simp only [show ({ (s.withMem x) with tree := tr } : St) = St.withMem { s with tree := tr } x from rfl, h2]
        · refine .inr (.inl ⟨a, { t with tree := t.tree.pop }, y, ?_, ?_, h3, h4⟩)
          · simp only [h1]
          · simp only [show ({ (s.withMem x) with tree := tr } : St) = St.withMem { s with tree := tr } x from rfl, h2]; rfl
        · refine .inr (.inr ⟨e, { t with tree := t.tree.pop }, y, ?_, ?_⟩)
          · simp only [h1]
          · simp only [show ({ (s.withMem x) with tree := tr } : St) = St.withMem { s with tree := tr } x from rfl, h2]; rfl
  report := by
    intro f _ s x hq hi
    unfold Hiera.report
    by_cases ho : s.on.isNone = true
    · rw [if_pos ho, if_pos (show (s.withMem x).on.isNone = true from ho)]
      exact .inr (.inl ⟨(), s, x, rfl, rfl, rfl, hi⟩)
    · rw [if_neg ho, if_neg (show ¬ (s.withMem x).on.isNone = true from ho)]
      simp only [show (s.withMem x).tree = s.tree from rfl]
      cases hp : s.tree.accept f with
      | none => exact .inr (.inr ⟨.nilDeref, s, x, rfl, rfl⟩)
      | some tr => exact .inr (.inl ⟨(), { s with tree := tr }, x, rfl, rfl, rfl, hi⟩)

theorem Sim.withCopy {α : Type} {m m' : M α} (f : Ic → Ic) (g : Option ExplOpts → Option ExplOpts) (hg : ∀ o, Q o → Q (g o))
    (hm : Sim I Q α m m') : Sim I Q α (withCopy f g m) (withCopy f g m') := by
  intro s x hq hi
  unfold Hiera.withCopy
  have e : ({ (s.withMem x) with v := { (s.withMem x).v with ic := f (s.withMem x).v.ic }, on := g (s.withMem x).on } : St) =
      St.withMem { s with v := { s.v with ic := f s.v.ic }, on := g s.on } x := rfl
  rw [e]
  rcases hm { s with v := { s.v with ic := f s.v.ic }, on := g s.on } x (hg _ hq) hi with ⟨h1, h2⟩ | ⟨a, t, y, h1, h2, h3, h4⟩ | ⟨er, t, y, h1, h2⟩
  · exact .inl ⟨by rw [h1], by rw [h2]⟩
  · exact .inr (.inl ⟨a, { t with v := { t.v with ic := s.v.ic }, on := s.on }, y, by rw [h1], by rw [h2]; rfl, rfl, h4⟩)
  · exact .inr (.inr ⟨er, { t with v := { t.v with ic := s.v.ic }, on := s.on }, y, by rw [h1], by rw [h2]; rfl⟩)

theorem Sim.ic (f : Ic → Ic) : Sim I Q Unit (Hiera.update (fun w => { w with ic := f w.ic })) (Hiera.update (fun w => { w with ic := f w.ic })) :=
  Sim.update (fun _ x h => ⟨x, rfl, h⟩)

variable {E : Env} (h : SimOk E I Q)
include h

theorem Sim.emit (e : Ev) : Sim I Q Unit (emit e) (emit e) :=
  Sim.update (fun _ x hi => ⟨{ x with trace := x.trace ++ [e] }, rfl, h.emit _ _ e hi⟩)

theorem Sim.closed : Closed E (Sim I Q) (Sim I Q) where
  toCore := Sim.core
  coreC := Sim.core
  doWithScope := by
    intro α m m' sc hm
    have c : Core (Sim I Q) := Sim.core
    unfold Hiera.doWithScope
    refine c.viewBind (fun v mm => c.bind (Sim.ic (fun i => { i with scope := sc })) (fun _ => c.bind hm (fun _ => c.bind ?_ (fun _ => c.pure _))))
    exact Sim.ic (fun i => { i with scope := v.ic.scope })
  newProvider := by
    intro e
    have c : Core (Sim I Q) := Sim.core
    refine c.viewBind (fun v mm => c.bind ?_ (fun _ => c.pure _))
    exact Sim.update (fun _ x h => ⟨x, rfl, h⟩)
  forConfig := by
    intro α m m' hm s x hq hi
    unfold Hiera.forConfig
    by_cases ho : s.on.isNone = true
    · rw [if_pos ho, if_pos (show (s.withMem x).on.isNone = true from ho)]; exact hm s x hq hi
    · rw [if_neg ho, if_neg (show ¬ (s.withMem x).on.isNone = true from ho)]
      exact Sim.withCopy id (fun _ => none) (fun _ _ => h.none) hm s x hq hi
  forData := by
    intro α m m' hm
    have c : Core (Sim I Q) := Sim.core
    unfold Hiera.forData
    refine c.viewBind (fun v mm => ?_)
    simp only [View.withMem]
    by_cases hd : v.ic.mode = .data
    · simp only [hd, ↓reduceIte]; exact hm
    · simp only [hd, ↓reduceIte]; exact Sim.withCopy _ _ h.forData hm
  forLookupOptions := by
    intro α m m' hm
    have c : Core (Sim I Q) := Sim.core
    unfold Hiera.forLookupOptions
    refine c.viewBind (fun v mm => ?_)
    simp only [View.withMem]
    by_cases hd : v.ic.mode = .lookupOptions
    · simp only [hd, ↓reduceIte]; exact hm
    · simp only [hd, ↓reduceIte]; exact Sim.withCopy _ _ h.forOptions hm
  doRedacted := by
    intro α m m' hm s x hq hi
    unfold Hiera.doRedacted
    by_cases ho : s.v.ic.redacted = true
    · rw [if_pos ho, if_pos (show (s.withMem x).v.ic.redacted = true from ho)]; exact hm s x hq hi
    · rw [if_neg ho, if_neg (show ¬ (s.withMem x).v.ic.redacted = true from ho)]
      have e : ({ (s.withMem x) with v := { (s.withMem x).v with ic := { (s.withMem x).v.ic with redacted := true } } } : St) =
          St.withMem { s with v := { s.v with ic := { s.v.ic with redacted := true } } } x := rfl
      rw [e]
      rcases hm { s with v := { s.v with ic := { s.v.ic with redacted := true } } } x hq hi with
        ⟨h1, h2⟩ | ⟨a, t, y, h1, h2, h3, h4⟩ | ⟨er, t, y, h1, h2⟩
      · exact .inl ⟨by rw [h1], by rw [h2]⟩
      · exact .inr (.inl ⟨a, { t with v := { t.v with ic := { t.v.ic with redacted := false } } }, y, by rw [h1], by rw [h2]; rfl, h3, h4⟩)
      · exact .inr (.inr ⟨er, { t with v := { t.v with ic := { t.v.ic with redacted := false } } }, y, by rw [h1], by rw [h2]; rfl⟩)
  loadOnce := h.loadOnce
  emitDig := fun n ps => Sim.emit h _
  emitKey := fun n o k => Sim.emit h _
  dataHash := h.dataHash
  loadConfig := h.loadConfig
  putConfig := fun path rc => Sim.update (fun _ x h => ⟨x, rfl, h⟩)
  setLuOpts := fun lo => Sim.ic (fun i => { i with luOpts := lo })
  setStrategy := fun st => Sim.ic (fun i => { i with strategy := some st })
  putCache := fun k v => Sim.update (fun _ x h => ⟨x, rfl, h⟩)

theorem Sim.eval (n : Nat) : RecRel (Sim I Q) (Sim I Q) (eval E n) (eval E n) :=
  (Sim.closed h).eval (fun _ _ _ _ _ => .inl ⟨rfl, rfl⟩) (fun _ _ _ _ _ => .inl ⟨rfl, rfl⟩) n
end

end Hiera
