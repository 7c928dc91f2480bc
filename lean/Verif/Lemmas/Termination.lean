/- Lookups end if data does not refer to itself: the proof. -/
import Verif.Lemmas.Halts
import Verif.Lemmas.Occurs

set_option autoImplicit false

namespace Hiera
open Spec Value

variable {E : Env} {T : Str → Prop} {sc : Scope}

/-! ### Computations that keep the state usable -/

/-- From usable states, `m` ends; if it ends normally, then with `Q` and in a usable state. -/
def Runs (E : Env) (T : Str → Prop) (sc : Scope) {α : Type} (m : Nat → M α) (Q : α → Prop) : Prop :=
  Halts (Usable E T sc) m (fun a v => Usable E T sc v ∧ Q a)

theorem Spec.Usable.withIc {v : View} (h : Usable E T sc v) {ic : Ic} (hic : ic.scope = v.ic.scope) :
    Usable E T sc { v with ic := ic } where
  scope := by dsimp only; rw [hic]; exact h.scope
  locked := h.locked
  hashes := h.hashes
  cache := h.cache
  configs := h.configs

theorem Spec.Usable.icOf {v w : View} (hv : Usable E T sc v) (hw : Usable E T sc w) : Usable E T sc { w with ic := v.ic } where
  scope := hv.scope
  locked := hw.locked
  hashes := hw.hashes
  cache := hw.cache
  configs := hw.configs

namespace Runs
variable {α β : Type}

theorem pure {a : α} {Q : α → Prop} (h : Q a) : Runs E T sc (fun _ => Pure.pure a) Q :=
  Halts.pure (fun _ hv => ⟨hv, h⟩)

theorem bind {m : Nat → M α} {f : Nat → α → M β} {Q : α → Prop} {R : β → Prop} (hm : Runs E T sc m Q)
    (hf : ∀ a, Q a → Runs E T sc (fun n => f n a) R) : Runs E T sc (fun n => m n >>= f n) R := by
  refine Halts.bind hm (fun a => Halts.assume (p := Q a) (fun _ h => h.2) (fun h => ?_))
  exact (hf a h).weaken (fun _ h => h.1) (fun _ _ h => h)

theorem post {m : Nat → M α} {Q Q' : α → Prop} (hm : Runs E T sc m Q) (h : ∀ a, Q a → Q' a) : Runs E T sc m Q' :=
  Halts.post hm (fun a _ hv => ⟨hv.1, h a hv.2⟩)

theorem panic {e : Err} {Q : α → Prop} : Runs E T sc (fun _ => Hiera.panic e) Q := Halts.panic

theorem lift {r : Res α} {Q : α → Prop} (h : ∀ a, r = .ok a → Q a) : Runs E T sc (fun _ => Hiera.lift r) Q :=
  Halts.lift (fun _ a hv ha => ⟨hv, h a ha⟩)

theorem view : Runs E T sc (fun _ => Hiera.view) (Usable E T sc) :=
  Halts.view.post (fun _ _ h => ⟨h.2 ▸ h.1, h.1⟩)

theorem update {f : View → View} {Q : Unit → Prop} (hq : Q ()) (h : ∀ v, Usable E T sc v → Usable E T sc (f v)) :
    Runs E T sc (fun _ => Hiera.update f) Q := Halts.update (fun v hv => ⟨h v hv, hq⟩)

theorem report {f : Node → Node} : Runs E T sc (fun _ => Hiera.report f) (fun _ => True) :=
  Halts.report.post (fun _ _ h => ⟨h, trivial⟩)

theorem withNode {nd : Node} {m : Nat → M α} {Q : α → Prop} (hm : Runs E T sc m Q) :
    Runs E T sc (fun n => Hiera.withNode nd (m n)) Q := Halts.withNode hm

theorem withCopy {f : Ic → Ic} {g : Option ExplOpts → Option ExplOpts} {m : Nat → M α} {Q : α → Prop}
    (hm : Runs E T sc m Q) (hf : ∀ ic, (f ic).scope = ic.scope) : Runs E T sc (fun n => Hiera.withCopy f g (m n)) Q :=
  Halts.withCopy hm (fun _ hv => hv.withIc (hf _)) (fun _ _ _ hv hw => ⟨hv.icOf hw.1, hw.2⟩)

theorem emit {e : Ev} : Runs E T sc (fun _ => Hiera.emit e) (fun _ => True) :=
  update trivial (fun _ h => ⟨h.scope, h.locked, h.hashes, h.cache, h.configs⟩)

theorem forConfig {m : Nat → M α} {Q : α → Prop} (hm : Runs E T sc m Q) : Runs E T sc (fun n => Hiera.forConfig (m n)) Q := by
  intro s hs
  have hw : ∀ n, Hiera.forConfig (m n) s = if s.on.isNone then m n s else Hiera.withCopy id (fun _ => none) (m n) s :=
    fun _ => rfl
  by_cases ho : s.on.isNone = true
  · obtain ⟨N, r, t, h1, h2⟩ := hm s hs
    exact ⟨N, r, t, fun n hn => (hw n).trans (by rw [if_pos ho]; exact h1 n hn), h2⟩
  · obtain ⟨N, r, t, h1, h2⟩ := (hm.withCopy (f := id) (g := fun _ => none) (fun _ => rfl)) s hs
    exact ⟨N, r, t, fun n hn => (hw n).trans (by rw [if_neg ho]; exact h1 n hn), h2⟩

theorem ite {c : Prop} [Decidable c] {m m' : Nat → M α} {Q : α → Prop} (h : c → Runs E T sc m Q)
    (h' : ¬c → Runs E T sc m' Q) : Runs E T sc (fun n => if c then m n else m' n) Q := by
  by_cases hc : c
  · simp only [if_pos hc]; exact h hc
  · simp only [if_neg hc]; exact h' hc

theorem forData {m : Nat → M α} {Q : α → Prop} (hm : Runs E T sc m Q) : Runs E T sc (fun n => Hiera.forData (m n)) Q := by
  unfold Hiera.forData
  exact bind view (fun v _ => ite (fun _ => hm) (fun _ => hm.withCopy (fun _ => rfl)))

theorem forLookupOptions {m : Nat → M α} {Q : α → Prop} (hm : Runs E T sc m Q) :
    Runs E T sc (fun n => Hiera.forLookupOptions (m n)) Q := by
  unfold Hiera.forLookupOptions
  exact bind view (fun v _ => ite (fun _ => hm) (fun _ => hm.withCopy (fun _ => rfl)))

theorem doRedacted {m : Nat → M α} {Q : α → Prop} (hm : Runs E T sc m Q) : Runs E T sc (fun n => Hiera.doRedacted (m n)) Q :=
  Halts.doRedacted hm (fun _ _ h => h.withIc rfl) (fun _ _ _ h => ⟨h.1.withIc rfl, h.2⟩)

theorem doWithScope {n' : Str} {x : Value} (hx : Clean T x) {v : View} (hv : Usable E T sc v) {m : Nat → M α} {Q : α → Prop}
    (hm : Runs E T sc m Q) : Runs E T sc (fun n => Hiera.doWithScope (.withVar v.ic.scope n' x) (m n)) Q := by
  unfold Hiera.doWithScope
  refine bind view (fun w hw => ?_)
  refine bind (update (Q := fun _ => True) trivial (fun u hu => ?_)) (fun _ _ => ?_)
  · refine ⟨fun y z hz => ?_, hu.locked, hu.hashes, hu.cache, hu.configs⟩
    dsimp only [Scope.withVar] at hz
    by_cases hy : n' = y
    · rw [if_pos hy] at hz; cases hz; exact .inr hx
    · rw [if_neg hy] at hz; exact hv.scope y z hz
  · refine bind hm (fun a ha => ?_)
    refine bind (update (Q := fun _ => True) trivial (fun u hu => ?_)) (fun _ _ => pure ha)
    exact ⟨hw.scope, hu.locked, hu.hashes, hu.cache, hu.configs⟩

/-! ### Merging -/

theorem mergeLoop {ι : Type} {p : Str → Prop} (st : Strategy) {f : Nat → ι → M (Option Value)} (vs : List ι)
    (hf : ∀ x ∈ vs, Runs E T sc (fun n => f n x) (CleanO p)) : ∀ memo, CleanO p memo →
    Runs E T sc (fun n => Hiera.mergeLoop st (f n) memo vs) (CleanO p) := by
  induction vs with
  | nil => intro memo hm; unfold Hiera.mergeLoop; exact pure hm
  | cons x vs ih =>
    intro memo hm
    have ih' := ih (fun y hy => hf y (List.mem_cons_of_mem _ hy))
    unfold Hiera.mergeLoop
    refine bind (hf x (List.mem_cons_self ..)) (fun r hr => ?_)
    cases r with
    | none => exact ih' memo hm
    | some y =>
      cases memo with
      | none => exact ih' _ (cleanO_some.2 (clean_convertValue st (cleanO_some.1 hr)))
      | some a => exact ih' _ (cleanO_some.2 (clean_strategyMerge st (cleanO_some.1 hm) (cleanO_some.1 hr)))

theorem firstLoop {ι : Type} {p : Str → Prop} {f : Nat → ι → M (Option Value)} (vs : List ι)
    (hf : ∀ x ∈ vs, Runs E T sc (fun n => f n x) (CleanO p)) :
    Runs E T sc (fun n => Hiera.firstLoop (f n) vs) (CleanO p) := by
  induction vs with
  | nil => unfold Hiera.firstLoop; exact pure cleanO_none
  | cons x vs ih =>
    unfold Hiera.firstLoop
    refine bind (hf x (List.mem_cons_self ..)) (fun r hr => ?_)
    cases r with
    | none => exact ih (fun y hy => hf y (List.mem_cons_of_mem _ hy))
    | some y => exact pure hr

theorem reportMerged {p : Str → Prop} {m : Nat → M (Option Value)} (hm : Runs E T sc m (CleanO p)) :
    Runs E T sc (fun n => do
      let r ← m n
      match r with
      | some v => do Hiera.report (.result v); Pure.pure (some v)
      | none => Pure.pure none) (CleanO p) := by
  refine bind hm (fun r hr => ?_)
  cases r with
  | none => exact pure hr
  | some v => exact bind report (fun _ _ => pure hr)

theorem mergeM {ι : Type} {p : Str → Prop} (st : Strategy) {f : Nat → ι → M (Option Value)} (vs : List ι)
    (hf : ∀ x ∈ vs, Runs E T sc (fun n => f n x) (CleanO p)) :
    Runs E T sc (fun n => Hiera.mergeM st vs (f n)) (CleanO p) := by
  have single : ∀ x, x ∈ vs → Runs E T sc (fun n => do
      match ← f n x with
      | some y => Pure.pure (some (st.single y))
      | none => Pure.pure none) (CleanO p) := by
    intro x hx
    refine bind (hf x hx) (fun r hr => ?_)
    cases r with
    | none => exact pure hr
    | some y => exact pure (cleanO_some.2 (clean_single st (cleanO_some.1 hr)))
  unfold Hiera.mergeM mergeLookup
  match st, vs with
  | _, [] => exact pure cleanO_none
  | .first, [x] => exact hf x (List.mem_cons_self ..)
  | .first, x :: y :: zs => exact reportMerged (firstLoop _ hf)
  | .unique, [x] => exact single x (List.mem_cons_self ..)
  | .hash, [x] => exact single x (List.mem_cons_self ..)
  | .deep _, [x] => exact single x (List.mem_cons_self ..)
  | .unique, x :: y :: zs => exact withNode (reportMerged (mergeLoop _ _ hf _ cleanO_none))
  | .hash, x :: y :: zs => exact withNode (reportMerged (mergeLoop _ _ hf _ cleanO_none))
  | .deep _, x :: y :: zs => exact withNode (reportMerged (mergeLoop _ _ hf _ cleanO_none))

/-! ### Keys -/

theorem digSeg {p : Str → Prop} {q : Part} {v : Option Value} (hv : CleanO p v) :
    Runs E T sc (fun _ => Hiera.digSeg q v) (CleanO p) := by
  unfold Hiera.digSeg
  cases hd : v.bind (digSegment q) with
  | none => exact bind report (fun _ _ => pure cleanO_none)
  | some w =>
    obtain ⟨x, rfl, hx⟩ := Option.bind_eq_some_iff.1 hd
    exact bind report (fun _ _ => pure (cleanO_some.2 (clean_digSegment (cleanO_some.1 hv) hx)))

theorem digLoop {p : Str → Prop} (ps : List Part) : ∀ {v : Option Value}, CleanO p v →
    Runs E T sc (fun _ => Hiera.digLoop ps v) (CleanO p) := by
  induction ps with
  | nil => intro v hv; unfold Hiera.digLoop; exact pure hv
  | cons q ps ih =>
    intro v hv
    unfold Hiera.digLoop
    refine bind (withNode (digSeg hv)) (fun r hr => ?_)
    cases r with
    | none => exact pure cleanO_none
    | some w => exact ih hr

theorem dig {p : Str → Prop} (k : Key) {v : Option Value} (hv : CleanO p v) :
    Runs E T sc (fun _ => Hiera.dig k v) (CleanO p) := by
  unfold Hiera.dig
  exact ite (fun _ => pure hv) (fun _ => withNode (digLoop _ hv))

end Runs

/-! ### Interpolation -/

/-- Interpolating a variable, or looking up a key, ends with text. -/
def Good (E : Env) (T : Str → Prop) (sc : Scope) (allow : Bool) : Referent → Prop
  | .var x => ∀ w, sc.get x = some w → Runs E T sc (fun n => (eval E n).interp w allow) (fun r => CleanO T r.1)
  | .key r => allow = true → ∀ k opts, k.root = r → Runs E T sc (fun n => (eval E n).lookup k opts) (CleanO T)

theorem interp_clean (hT : Inert T) (allow : Bool) {v : Value} (hv : Clean T v) :
    Runs E T sc (fun n => (eval E n).interp v allow) (fun r => CleanO T r.1) := by
  refine Halts.succ (m := fun _ => Pure.pure (some v, false)) (Runs.pure (cleanO_some.2 hv)) (fun n => ?_)
  exact interp_plain E (eval E n) allow (plain_of_clean (fun _ => hT.unmarked) v hv)

theorem Runs.interpInScope (hT : Inert T) {allow : Bool} {e : Str}
    (hg : ∀ k, newKey e = .ok k → Good E T sc allow (.var k.root)) :
    Runs E T sc (fun n => Hiera.interpInScope (eval E n) e allow) (CleanO T) := by
  unfold Hiera.interpInScope
  refine bind (lift (Q := fun k => newKey e = .ok k) (fun _ h => h)) (fun k hk => ?_)
  refine bind view (fun v hv => ?_)
  cases hs : v.ic.scope.get k.root with
  | none => exact pure cleanO_none
  | some x =>
    refine bind (Q := fun r => CleanO T r.1) ?_ (fun r hr => dig k hr)
    rcases hv.scope _ _ hs with h | h
    · exact hg k hk x h
    · exact interp_clean hT allow h

/-- The expression is no call of `literal`, or one with the right kind of text. -/
def TidyExpr (T : Str → Prop) (e : Str) : Prop := ∀ x arg, Trimmed e x → Call x "literal".toList arg → T arg

theorem textOf_clean (hT : Inert T) (ht : ∀ v, Clean T v → T (E.toStr v)) {v : Option Value} (hv : CleanO T v) :
    T (E.textOf v) := by
  cases v with
  | none => exact hT.nil
  | some x => exact ht x (cleanO_some.1 hv)

/-- What an expression adds to the text, and to the result of aliases. -/
def AddsClean (T : Str → Prop) (e : Str) (st st' : IplState) : Prop :=
  (∃ o, st'.out = st.out ++ o ∧ (TidyExpr T e → T o)) ∧ (CleanO T st.result → CleanO T st'.result)

theorem Runs.interpExpr (hT : Inert T) (ht : ∀ v, Clean T v → T (E.toStr v)) {str e : Str} {allow : Bool} {st : IplState}
    (hg : ∀ x i, Trimmed e x → ExprRefers x i → Good E T sc allow i) :
    Runs E T sc (fun n => Hiera.interpExpr E (eval E n) str allow e st) (AddsClean T e st) := by
  have hx := trimSpace_trimmed e
  have same : AddsClean T e st st := ⟨⟨[], by simp, fun _ => hT.nil⟩, fun h => h⟩
  unfold Hiera.interpExpr
  refine ite (fun _ => pure same) (fun _ => ?_)
  refine bind (lift (Q := fun md => getMethodAndData (trimSpace e) allow = .ok md) (fun _ h => h)) (fun md hmd => ?_)
  refine ite (fun _ => panic) (fun _ => ?_)
  obtain ⟨m, d⟩ := md
  have key : ∀ name, Call (trimSpace e) name d → name ∈ lookupFunctions → allow = true →
      ∀ k, newKey d = .ok k → Runs E T sc (fun n => (eval E n).lookup k []) (CleanO T) :=
    fun name hc hn ha k hk => hg _ (.key k.root) hx (.key hc hn hk) ha k [] rfl
  unfold getMethodAndData at hmd
  have hlook : ∀ name, Call (trimSpace e) name d → name ∈ lookupFunctions → allow = true → ∀ m : Method,
      Runs E T sc (fun n => do
        let k ← Hiera.lift (newKey d)
        let v ← (eval E n).lookup k []
        if m.isAlias then Pure.pure { st with result := v, method := m }
        else Pure.pure { st with out := st.out ++ E.textOf v, method := m }) (AddsClean T e st) := by
    intro name hc hn ha m
    refine bind (lift (Q := fun k => newKey d = .ok k) (fun _ h => h)) (fun k hk => ?_)
    refine bind (key name hc hn ha k hk) (fun v hv => ?_)
    refine ite (fun _ => pure ?_) (fun _ => pure ?_)
    · exact ⟨⟨[], by simp, fun _ => hT.nil⟩, fun _ => hv⟩
    · exact ⟨⟨_, rfl, fun _ => textOf_clean hT ht hv⟩, fun h => h⟩
  have hscope : (∀ k, newKey d = .ok k → Good E T sc allow (.var k.root)) → Runs E T sc (fun n => do
        let v ← Hiera.interpInScope (eval E n) d allow
        Pure.pure { st with out := st.out ++ E.textOf v, method := .scope }) (AddsClean T e st) := by
    intro h
    refine bind (interpInScope hT h) (fun v hv => pure ?_)
    exact ⟨⟨_, rfl, fun _ => textOf_clean hT ht hv⟩, fun h => h⟩
  cases hm : methodMatch (trimSpace e) with
  | none =>
    rw [hm] at hmd
    cases hmd
    refine hscope (fun k hk => hg _ _ hx (.var (fun name arg hc => ?_) hk))
    rw [← methodMatch_iff, hm] at hc
    cases hc
  | some nd =>
    obtain ⟨name, arg⟩ := nd
    rw [hm] at hmd
    have hc := (methodMatch_iff _ _ _).1 hm
    dsimp only at hmd
    by_cases ha : allow = true
    case neg => simp [ha] at hmd
    rw [if_neg (by simp [ha])] at hmd
    split at hmd
    · rename_i hn; subst hn; cases hmd
      exact hlook _ hc (by simp [lookupFunctions]) ha _
    split at hmd
    · rename_i hn; subst hn; cases hmd
      exact hlook _ hc (by simp [lookupFunctions]) ha _
    split at hmd
    · rename_i hn; cases hmd
      exact hlook _ hc (by rcases hn with rfl | rfl <;> simp [lookupFunctions]) ha _
    split at hmd
    · rename_i hn; subst hn; cases hmd
      exact pure ⟨⟨_, rfl, fun h => h _ _ hx hc⟩, fun h => h⟩
    split at hmd
    · rename_i hn; subst hn; cases hmd
      exact hscope (fun k hk => hg _ _ hx (.scope hc hk))
    · cases hmd

/-- What pieces of a string become. -/
inductive Rend (T : Str → Prop) : List Tok → Str → Prop
  | nil : Rend T [] []
  | chr {c ts o} : Rend T ts o → Rend T (.chr c :: ts) (c :: o)
  | expr {e ts o o'} : (TidyExpr T e → T o) → Rend T ts o' → Rend T (.expr e :: ts) (o ++ o')

theorem Rend.chars {s : Str} {ts : List Tok} {o : Str} (h : Rend T (s.map .chr ++ ts) o) : ∃ o', o = s ++ o' ∧ Rend T ts o' := by
  induction s generalizing o with
  | nil => exact ⟨o, rfl, h⟩
  | cons c s ih =>
    rw [List.map_cons, List.cons_append] at h
    cases h with
    | chr h =>
      obtain ⟨o', rfl, h'⟩ := ih h
      exact ⟨o', rfl, h'⟩

theorem Rend.tidy (hT : Inert T) {ts : List Tok} (ht : TidyToks T ts) : ∀ {o : Str}, Rend T ts o → T o := by
  induction ht with
  | nil => intro o h; cases h; exact hT.nil
  | text hs _ ih =>
    intro o h
    obtain ⟨o', rfl, h'⟩ := h.chars
    exact hT.append hs (ih h')
  | expr he _ ih =>
    intro o h
    cases h with
    | expr h1 h2 => exact hT.append (h1 he) (ih h2)

theorem Rend.self (s : Str) : Rend T (s.map .chr) s := by
  induction s with
  | nil => exact .nil
  | cons c s ih => exact .chr ih

theorem Runs.interpToks (hT : Inert T) (ht : ∀ v, Clean T v → T (E.toStr v)) {str : Str} {allow : Bool} (ts : List Tok)
    (hg : ∀ e x i, Tok.expr e ∈ ts → Trimmed e x → ExprRefers x i → Good E T sc allow i) : ∀ st,
    Runs E T sc (fun n => Hiera.interpToks E (eval E n) str allow ts st)
      (fun st' => (∃ o, st'.out = st.out ++ o ∧ Rend T ts o) ∧ (CleanO T st.result → CleanO T st'.result)) := by
  induction ts with
  | nil => intro st; unfold Hiera.interpToks; exact pure ⟨⟨[], by simp, .nil⟩, fun h => h⟩
  | cons t ts ih =>
    intro st
    have ih' := ih (fun e x i he => hg e x i (List.mem_cons_of_mem _ he))
    cases t with
    | chr c =>
      unfold Hiera.interpToks
      refine (ih' _).post (fun st' h => ?_)
      obtain ⟨⟨o, h1, h2⟩, h3⟩ := h
      exact ⟨⟨c :: o, by rw [h1]; simp, .chr h2⟩, h3⟩
    | expr e =>
      unfold Hiera.interpToks
      refine bind (interpExpr hT ht (fun x i => hg e x i (List.mem_cons_self ..))) (fun st1 h1 => ?_)
      refine (ih' st1).post (fun st' h => ?_)
      obtain ⟨⟨o, h2, h3⟩, h4⟩ := h
      obtain ⟨⟨o1, h5, h6⟩, h7⟩ := h1
      exact ⟨⟨o1 ++ o, by rw [h2, h5]; simp, .expr h6 h3⟩, fun h => h4 (h7 h)⟩

theorem Runs.interpStr (hT : Inert T) (ht : ∀ v, Clean T v → T (E.toStr v)) {s : Str} {allow : Bool}
    (hg : ∀ i, Refers (.str s) i → Good E T sc allow i) :
    Runs E T sc (fun n => Hiera.interpStr E (eval E n) s allow)
      (fun r => TidyStr T s → CleanO T r.1 ∧ (r.2 = false → T s)) := by
  unfold Hiera.interpStr
  refine ite (fun _ => ?_) (fun hm => ?_)
  · refine bind (withNode (Q := fun r => TidyStr T s → CleanO T r) ?_) (fun r hr => pure (fun h => ⟨hr h, fun h => by cases h⟩))
    refine bind (interpToks hT ht _ (fun e x i he hx hi => hg i ⟨s, _, e, x, .str, tokens_splits s, he, hx, hi⟩) {})
      (fun st hst => pure (fun h => ?_))
    obtain ⟨⟨o, h1, h2⟩, h3⟩ := hst
    have hres := h3 cleanO_none
    unfold IplState.finish
    split
    · rw [cleanO_some, clean_str, h1]
      exact h2.tidy hT (h _ (tokens_splits s))
    · exact hres
  · refine pure (fun h => ?_)
    have hu : ¬Marked s := fun h => hm ((hasMarker_iff s).2 h)
    have : T s := (Rend.self s).tidy hT (h _ (splits_unmarked hu))
    exact ⟨cleanO_some.2 (clean_str.2 this), fun _ => this⟩

mutual
theorem Runs.interp (hT : Inert T) (ht : ∀ v, Clean T v → T (E.toStr v)) {allow : Bool} : ∀ (v : Value),
    (∀ i, Refers v i → Good E T sc allow i) → Runs E T sc (fun n => Hiera.interp E (eval E n) allow v)
      (fun r => Tidy T v → CleanO T r.1 ∧ (r.2 = false → Clean T v))
  | .str s, hg => by
    unfold Hiera.interp
    refine (interpStr hT ht hg).post (fun r h h' => ?_)
    exact ⟨(h (h' s .str)).1, fun hr => clean_str.2 ((h (h' s .str)).2 hr)⟩
  | .arr es, hg => by
    unfold Hiera.interp
    refine bind (interpList hT ht es (fun v hv i hi => hg i ?_)) (fun r hr => ?_)
    · obtain ⟨s, ts, e, x, h, h'⟩ := hi
      exact ⟨s, ts, e, x, .elem hv h, h'⟩
    · have hr' : Tidy T (.arr es) → _ := fun h => hr ((clean_arr (p := TidyStr T)).1 h)
      refine ite (fun _ => pure (fun h => ?_)) (fun h2 => pure (fun h => ?_))
      · exact ⟨cleanO_some.2 (hr' h).1, fun h => by cases h⟩
      · have := (hr' h).2 (by simpa using h2)
        exact ⟨cleanO_some.2 (clean_arr.2 this), fun _ => clean_arr.2 this⟩
  | .map es, hg => by
    unfold Hiera.interp
    refine bind (interpMap hT ht es (fun k v hv i hi => hg i ?_) []) (fun r hr => ?_)
    · rcases hi with ⟨s, ts, e, x, h, h'⟩ | ⟨s, ts, e, x, h, h'⟩
      · exact ⟨s, ts, e, x, .key hv h, h'⟩
      · exact ⟨s, ts, e, x, .val hv h, h'⟩
    · have hr' : Tidy T (.map es) → _ := fun h => hr clean_nil ((clean_map (p := TidyStr T)).1 h)
      refine ite (fun _ => pure (fun h => ?_)) (fun h2 => pure (fun h => ?_))
      · exact ⟨cleanO_some.2 (hr' h).1, fun h => by cases h⟩
      · have := (hr' h).2 (by simpa using h2)
        exact ⟨cleanO_some.2 (clean_map.2 this), fun _ => clean_map.2 this⟩
  | .null, _ => by
    simp only [Hiera.interp]
    exact pure (fun _ => ⟨cleanO_some.2 clean_null, fun _ => clean_null⟩)
  | .bool b, _ => by
    have h : Clean T (.bool b) := fun _ hs => nomatch hs
    simp only [Hiera.interp]
    exact pure (fun _ => ⟨cleanO_some.2 h, fun _ => h⟩)
  | .int b, _ => by
    have h : Clean T (.int b) := fun _ hs => nomatch hs
    simp only [Hiera.interp]
    exact pure (fun _ => ⟨cleanO_some.2 h, fun _ => h⟩)
  | .sensitive b, _ => by
    have h : Clean T (.sensitive b) := fun _ hs => nomatch hs
    simp only [Hiera.interp]
    exact pure (fun _ => ⟨cleanO_some.2 h, fun _ => h⟩)
  | .opaque b, _ => by
    have h : Clean T (.opaque b) := fun _ hs => nomatch hs
    simp only [Hiera.interp]
    exact pure (fun _ => ⟨cleanO_some.2 h, fun _ => h⟩)
theorem Runs.interpList (hT : Inert T) (ht : ∀ v, Clean T v → T (E.toStr v)) {allow : Bool} : ∀ (vs : List Value),
    (∀ v ∈ vs, ∀ i, Refers v i → Good E T sc allow i) → Runs E T sc (fun n => Hiera.interpList E (eval E n) allow vs)
      (fun r => (∀ v ∈ vs, Tidy T v) → Clean T (.arr r.1) ∧ (r.2 = false → ∀ v ∈ vs, Clean T v))
  | [], _ => by
    unfold Hiera.interpList
    exact pure (fun _ => ⟨clean_arr.2 (fun _ h => by cases h), fun _ _ h => by cases h⟩)
  | v :: vs, hg => by
    unfold Hiera.interpList
    refine bind (interp hT ht v (hg v (List.mem_cons_self ..))) (fun r hr => ?_)
    refine bind (interpList hT ht vs (fun w hw => hg w (List.mem_cons_of_mem _ hw))) (fun rs hrs => pure (fun h => ?_))
    obtain ⟨h1, h2⟩ := hr (h v (List.mem_cons_self ..))
    obtain ⟨h3, h4⟩ := hrs (fun w hw => h w (List.mem_cons_of_mem _ hw))
    refine ⟨clean_arr.2 (fun w hw => ?_), fun hb w hw => ?_⟩
    · rcases List.mem_cons.1 hw with rfl | hw
      · cases hr2 : r.2 with
        | true =>
          rw [if_pos rfl]
          cases hr1 : r.1 with
          | none => exact clean_null
          | some y => rw [hr1] at h1; exact cleanO_some.1 h1
        | false => rw [if_neg (by simp)]; exact h2 hr2
      · exact clean_arr.1 h3 w hw
    · have hb' : r.2 = false ∧ rs.2 = false := by simpa using hb
      rcases List.mem_cons.1 hw with rfl | hw
      · exact h2 hb'.1
      · exact h4 hb'.2 w hw
theorem Runs.interpMap (hT : Inert T) (ht : ∀ v, Clean T v → T (E.toStr v)) {allow : Bool} : ∀ (es : List (Value × Value)),
    (∀ k v, (k, v) ∈ es → ∀ i, Refers k i ∨ Refers v i → Good E T sc allow i) → ∀ cp,
    Runs E T sc (fun n => Hiera.interpMap E (eval E n) allow cp es)
      (fun r => Clean T (.map cp) → (∀ e ∈ es, Tidy T e.1 ∧ Tidy T e.2) →
        Clean T (.map r.1) ∧ (r.2 = false → ∀ e ∈ es, Clean T e.1 ∧ Clean T e.2))
  | [], _, cp => by
    unfold Hiera.interpMap
    exact pure (fun hcp _ => ⟨hcp, fun _ _ h => by cases h⟩)
  | (k, v) :: es, hg, cp => by
    have getD : ∀ o : Option Value, CleanO T o → Clean T (o.getD .null) := by
      intro o ho
      cases o with
      | none => exact clean_null
      | some y => exact cleanO_some.1 ho
    unfold Hiera.interpMap
    refine bind (interp hT ht k (fun i hi => hg k v (List.mem_cons_self ..) i (.inl hi))) (fun rk hrk => ?_)
    refine bind (interp hT ht v (fun i hi => hg k v (List.mem_cons_self ..) i (.inr hi))) (fun rv hrv => ?_)
    refine bind (interpMap hT ht es (fun k' v' hm => hg k' v' (List.mem_cons_of_mem _ hm)) _) (fun rs hrs => pure (fun hcp h => ?_))
    obtain ⟨h1, h2⟩ := hrk (h (k, v) (List.mem_cons_self ..)).1
    obtain ⟨h3, h4⟩ := hrv (h (k, v) (List.mem_cons_self ..)).2
    obtain ⟨h5, h6⟩ := hrs (clean_put hcp (getD _ h1) (getD _ h3)) (fun e he => h e (List.mem_cons_of_mem _ he))
    refine ⟨h5, fun hb e he => ?_⟩
    have hb' : (rk.2 = false ∧ rv.2 = false) ∧ rs.2 = false := by simpa using hb
    rcases List.mem_cons.1 he with rfl | he
    · exact ⟨h2 hb'.1.1, h4 hb'.1.2⟩
    · exact h6 hb'.2 e he
end

theorem Runs.interpolate (hT : Inert T) (ht : ∀ v, Clean T v → T (E.toStr v)) {allow : Bool} {v : Value}
    (hg : ∀ i, Refers v i → Good E T sc allow i) :
    Runs E T sc (fun n => Hiera.interpolate E (eval E n) allow v) (fun r => Tidy T v → CleanO T r) := by
  unfold Hiera.interpolate
  refine bind (interp hT ht v hg) (fun r hr => pure (fun h => ?_))
  obtain ⟨h1, h2⟩ := hr h
  cases hb : r.2 with
  | true => exact h1
  | false => exact cleanO_some.2 (h2 hb)

/-! ### Resolving configurations -/

section Config
variable (hT : Inert T) (ht : ∀ v, Clean T v → T (E.toStr v)) (hg : ∀ i, Good E T sc false i)
include hT ht hg

theorem Runs.interpCfg (s : Str) : Runs E T sc (fun n => Hiera.interpCfg E (eval E n) s) (fun _ => True) := by
  unfold Hiera.interpCfg
  refine bind (interpStr hT ht (fun i _ => hg i)) (fun r _ => ?_)
  cases r.1 with
  | none => exact panic
  | some v => exact pure trivial

theorem Runs.resolveFunction (d : Option Entry) (e : Entry) :
    Runs E T sc (fun n => Hiera.resolveFunction E (eval E n) d e) (fun _ => True) := by
  unfold Hiera.resolveFunction
  cases e.function with
  | none =>
    cases d with
    | none => exact pure trivial
    | some d =>
      dsimp only
      cases d.function with
      | none => exact panic
      | some f => exact pure trivial
  | some kn => exact bind (interpCfg hT ht hg _) (fun _ _ => pure trivial)

theorem Runs.resolveDataDir (d : Option Entry) (e : Entry) :
    Runs E T sc (fun n => Hiera.resolveDataDir E (eval E n) d e) (fun _ => True) := by
  unfold Hiera.resolveDataDir
  refine bind (resolveFunction hT ht hg d e) (fun e _ => ite (fun _ => ?_) (fun _ => ?_))
  · cases d with
    | none => exact pure trivial
    | some d => exact pure trivial
  · exact bind (interpCfg hT ht hg _) (fun _ _ => pure trivial)

theorem Runs.pluginDirOf (d : Option Entry) (e : Entry) :
    Runs E T sc (fun n => Hiera.pluginDirOf E (eval E n) d e) (fun _ => True) := by
  unfold Hiera.pluginDirOf
  refine ite (fun _ => ?_) (fun _ => interpCfg hT ht hg _)
  cases d with
  | none => exact pure trivial
  | some d => exact pure trivial

theorem Runs.resolvePluginDir (d : Option Entry) (e : Entry) :
    Runs E T sc (fun n => Hiera.resolvePluginDir E (eval E n) d e) (fun _ => True) := by
  unfold Hiera.resolvePluginDir
  exact bind (pluginDirOf hT ht hg d e) (fun _ _ => pure trivial)

theorem Runs.resolveOptions (d : Option Entry) (e : Entry) :
    Runs E T sc (fun n => Hiera.resolveOptions E (eval E n) d e) (fun _ => True) := by
  unfold Hiera.resolveOptions
  cases e.options with
  | none =>
    cases d with
    | none => exact pure trivial
    | some d => exact pure trivial
  | some os =>
    cases os with
    | nil => exact pure trivial
    | cons o os =>
      refine bind (interpolate hT ht (fun i _ => hg i)) (fun r _ => ?_)
      split
      · exact pure trivial
      · exact panic

theorem Runs.resolveMapped (key template dataDir : Str) (vs : List Value) (hvs : ∀ v ∈ vs, Clean T v) :
    Runs E T sc (fun n => Hiera.resolveMapped E (eval E n) key template dataDir vs) (fun _ => True) := by
  induction vs with
  | nil => unfold Hiera.resolveMapped; exact pure trivial
  | cons v vs ih =>
    unfold Hiera.resolveMapped
    refine bind view (fun w hw => ?_)
    refine bind (doWithScope (hvs v (List.mem_cons_self ..)) hw
      (bind (interpCfg hT ht hg _) (fun _ _ => pure (Q := fun _ => True) trivial))) (fun _ _ => ?_)
    exact bind (ih (fun x hx => hvs x (List.mem_cons_of_mem _ hx))) (fun _ _ => pure trivial)

theorem Runs.locResolve (dataDir : Str) (l : Loc) :
    Runs E T sc (fun n => l.resolve E (eval E n) dataDir) (fun _ => True) := by
  unfold Loc.resolve
  cases l with
  | path o _ _ => exact bind (interpCfg hT ht hg _) (fun _ _ => pure trivial)
  | glob o => exact bind (interpCfg hT ht hg _) (fun _ _ => pure trivial)
  | uri o _ => exact bind (interpCfg hT ht hg _) (fun _ _ => pure trivial)
  | mapped src key template =>
    refine bind (interpInScope hT (fun k _ => hg _)) (fun r hr => ?_)
    split
    · exact resolveMapped hT ht hg _ _ _ _ (fun v hv => by
        rw [List.mem_singleton] at hv; subst hv; exact cleanO_some.1 hr)
    · exact resolveMapped hT ht hg _ _ _ _ (clean_arr.1 (cleanO_some.1 hr))
    · exact pure trivial

theorem Runs.resolveLocs (dataDir : Str) (ls : List Loc) :
    Runs E T sc (fun n => Hiera.resolveLocs E (eval E n) dataDir ls) (fun _ => True) := by
  induction ls with
  | nil => unfold Hiera.resolveLocs; exact pure trivial
  | cons l ls ih =>
    unfold Hiera.resolveLocs
    exact bind (locResolve hT ht hg _ _) (fun _ _ => bind ih (fun _ _ => pure trivial))

theorem Runs.resolveLocations (e : Entry) :
    Runs E T sc (fun n => Hiera.resolveLocations E (eval E n) e) (fun _ => True) := by
  unfold Hiera.resolveLocations
  cases e.locations with
  | none => exact pure trivial
  | some ls => exact bind (resolveLocs hT ht hg _ _) (fun _ _ => pure trivial)

theorem Runs.entryResolve (d : Option Entry) (e : Entry) :
    Runs E T sc (fun n => e.resolve E (eval E n) d) (fun _ => True) := by
  unfold Entry.resolve
  exact bind (resolveFunction hT ht hg _ _) (fun _ _ => bind (resolveDataDir hT ht hg _ _) (fun _ _ =>
    bind (resolvePluginDir hT ht hg _ _) (fun _ _ => bind (resolveOptions hT ht hg _ _) (fun _ _ =>
      resolveLocations hT ht hg _))))

theorem Runs.createProviders (c : Cfg) (hs : List Entry) :
    Runs E T sc (fun n => Hiera.createProviders E (eval E n) c hs) (fun _ => True) := by
  have loop : ∀ d, Runs E T sc (fun n => Hiera.createProvidersLoop E (eval E n) d hs) (fun _ => True) := by
    intro d
    induction hs with
    | nil => unfold Hiera.createProvidersLoop; exact pure trivial
    | cons e es ih =>
      unfold Hiera.createProvidersLoop
      refine bind (entryResolve hT ht hg _ _) (fun e' _ => bind (Q := fun _ => True) ?_ (fun _ _ => bind ih (fun _ _ => pure trivial)))
      unfold newProvider
      exact bind view (fun _ _ => bind (update (Q := fun _ => True) trivial
        (fun _ h => ⟨h.scope, h.locked, h.hashes, h.cache, h.configs⟩)) (fun _ _ => pure trivial))
  unfold Hiera.createProviders
  exact bind (entryResolve hT ht hg _ _) (fun _ _ => loop _)

end Config

end Hiera
