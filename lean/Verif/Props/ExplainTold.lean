/-
  Property C63: what an explanation tells about a lookup (`session/invocation.go:204-241`, `300-379`, `422-462`).
-/
import Verif.Spec.Told
import Verif.Lemmas.NonInterf
import Verif.Lemmas.World

set_option autoImplicit false

namespace Hiera
open World Spec

/-- `m` leaves one more branch in the explanation. -/
def Adds (P : Res (Option Value) → Node → Prop) (m : M (Option Value)) : Prop :=
  ∀ (s : St) (c : Node) (us : List Node) (r : Res (Option Value)) (t : St), s.on.isNone = false → s.tree = .at c us →
    m s = some (r, t) → t.on = s.on ∧ ∃ b, t.tree = .at (c.appendBranch b) us ∧ P r b

/-- `m` leaves some more branches in the explanation. -/
def AddsAll (P : Res (Option Value) → List Node → Prop) (m : M (Option Value)) : Prop :=
  ∀ (s : St) (c : Node) (us : List Node) (r : Res (Option Value)) (t : St), s.on.isNone = false → s.tree = .at c us →
    m s = some (r, t) → t.on = s.on ∧ ∃ c' bs, t.tree = .at c' us ∧ (c'.kind = c.kind ∧ c'.key = c.key) ∧
      c'.branches = c.branches ++ bs ∧ P r bs

/-- The same, and nothing else is added. -/
def AddsOnly (P : Res (Option Value) → List Node → Prop) (m : M (Option Value)) : Prop :=
  ∀ (s : St) (c : Node) (us : List Node) (r : Res (Option Value)) (t : St), s.on.isNone = false → s.tree = .at c us →
    m s = some (r, t) → t.on = s.on ∧ ∃ c' bs, t.tree = .at c' us ∧ ((c'.kind = c.kind ∧ c'.key = c.key) ∧ c'.event = c.event) ∧
      c'.branches = c.branches ++ bs ∧ P r bs

theorem report_on {f : Node → Node} {s : St} {c : Node} {us : List Node} (h : s.on.isNone = false) (ht : s.tree = .at c us) :
    report f s = some (.ok (), { s with tree := .at (f c) us }) := by
  unfold report
  rw [if_neg (by rw [h]; decide), ht]
  rfl

theorem withNode_adds {P : Res (Option Value) → Node → Prop} {n : Node} {m : M (Option Value)}
    (hm : ∀ (s : St) (us : List Node) (r : Res (Option Value)) (t : St), s.on.isNone = false → s.tree = .at n us →
      m s = some (r, t) → t.on = s.on ∧ ∃ b, t.tree = .at b us ∧ P r b) : Adds P (withNode n m) := by
  intro s c us r t ho ht h
  rw [withNode_on (by rw [ho]; decide) ht] at h
  cases h1 : m { s with tree := .at n (c :: us) } with
  | none => rw [h1] at h; cases h
  | some x =>
    obtain ⟨r', t'⟩ := x
    rw [h1] at h
    cases h
    obtain ⟨h2, b, h3, h4⟩ := hm { s with tree := .at n (c :: us) } (c :: us) _ _ ho rfl h1
    exact ⟨h2, b, by simp only [h3, Tree.pop], h4⟩

/-! ### The loops -/

/-- The first of the values. -/
def headOf : Res (List Value) → Res (Option Value)
  | .ok xs => .ok xs.head?
  | .panic e => .panic e

theorem firstLoop_told {α : Type} {P : α → Res (Option Value) → Node → Prop} {f : α → M (Option Value)} (hf : ∀ v, Adds (P v) (f v))
    (vs : List α) : AddsOnly (fun o bs => ∃ found, Told true P vs found bs ∧ o = headOf found) (firstLoop f vs) := by
  induction vs with
  | nil =>
    intro s c us r t ho ht h
    cases h
    exact ⟨rfl, c, [], ht, ⟨⟨rfl, rfl⟩, rfl⟩, (List.append_nil _).symm, _, .nobody, rfl⟩
  | cons v vs ih =>
    intro s c us r t ho ht h
    unfold firstLoop at h
    rw [bind_def] at h
    cases h1 : f v s with
    | none => rw [h1] at h; cases h
    | some x =>
      obtain ⟨r1, t1⟩ := x
      rw [h1] at h
      obtain ⟨h2, b, h3, h4⟩ := hf v s c us r1 t1 ho ht h1
      cases r1 with
      | panic e => cases h; exact ⟨h2, _, [b], h3, ⟨⟨rfl, rfl⟩, rfl⟩, rfl, _, .failure h4, rfl⟩
      | ok o =>
        cases o with
        | some y => cases h; exact ⟨h2, _, [b], h3, ⟨⟨rfl, rfl⟩, rfl⟩, rfl, _, .enough rfl h4, rfl⟩
        | none =>
          obtain ⟨h5, c', bs, h6, h7, h8, found, h9, h10⟩ := ih t1 _ us r t (by rw [h2, ho]) h3 h
          exact ⟨h5.trans h2, c', b :: bs, h6, h7, by rw [h8]; exact List.append_assoc _ _ _, found, .silent h4 h9, h10⟩

/-- What a loop that has this already ends with. -/
def foldFrom (st : Strategy) : Option Value → List Value → Option Value
  | memo, [] => memo
  | none, x :: xs => foldFrom st (some (st.convertValue x)) xs
  | some a, x :: xs => foldFrom st (some (st.merge a x)) xs

theorem foldFrom_some (st : Strategy) (a : Value) (xs : List Value) : foldFrom st (some a) xs = some (xs.foldl st.merge a) := by
  induction xs generalizing a with
  | nil => rfl
  | cons x xs ih => exact ih _

/-- The same for what was asked. -/
def carried (st : Strategy) (memo : Option Value) : Res (List Value) → Res (Option Value)
  | .ok xs => .ok (foldFrom st memo xs)
  | .panic e => .panic e

theorem told_answer {α : Type} {P : α → Res (Option Value) → Node → Prop} {v : α} {vs : List α} {b : Node} {bs : List Node} {x : Value}
    {o : Res (List Value)} (h : P v (.ok (some x)) b) (ht : Told false P vs o bs) :
    Told false P (v :: vs) (match o with | .ok xs => .ok (x :: xs) | .panic e => .panic e) (b :: bs) := by
  cases o with
  | ok a => exact .answer rfl h ht
  | panic e => exact .answerThenFailure rfl h ht

theorem mergeLoop_told {α : Type} {P : α → Res (Option Value) → Node → Prop} {f : α → M (Option Value)} (hf : ∀ v, Adds (P v) (f v))
    (st : Strategy) (vs : List α) (memo : Option Value) :
    AddsOnly (fun o bs => ∃ found, Told false P vs found bs ∧ o = carried st memo found) (mergeLoop st f memo vs) := by
  induction vs generalizing memo with
  | nil =>
    intro s c us r t ho ht h
    cases h
    refine ⟨rfl, c, [], ht, ⟨⟨rfl, rfl⟩, rfl⟩, (List.append_nil _).symm, _, .nobody, ?_⟩
    cases memo <;> rfl
  | cons v vs ih =>
    intro s c us r t ho ht h
    unfold mergeLoop at h
    rw [bind_def] at h
    cases h1 : f v s with
    | none => rw [h1] at h; cases h
    | some x =>
      obtain ⟨r1, t1⟩ := x
      rw [h1] at h
      obtain ⟨h2, b, h3, h4⟩ := hf v s c us r1 t1 ho ht h1
      cases r1 with
      | panic e => cases h; exact ⟨h2, _, [b], h3, ⟨⟨rfl, rfl⟩, rfl⟩, rfl, _, .failure h4, rfl⟩
      | ok o =>
        cases o with
        | some y =>
          have : ∃ m', (∀ xs, foldFrom st m' xs = foldFrom st memo (y :: xs)) ∧ mergeLoop st f m' vs t1 = some (r, t) := by
            cases memo with
            | none => exact ⟨_, fun _ => rfl, h⟩
            | some a => exact ⟨_, fun _ => rfl, h⟩
          obtain ⟨m', hm', h'⟩ := this
          obtain ⟨h5, c', bs, h6, h7, h8, o', h9, h10⟩ := ih m' t1 _ us r t (by rw [h2, ho]) h3 h'
          refine ⟨h5.trans h2, c', b :: bs, h6, h7, by rw [h8]; exact List.append_assoc _ _ _, _, told_answer h4 h9, ?_⟩
          rw [h10]
          cases o' with
          | ok a => simp only [carried, hm']
          | panic e => rfl
        | none =>
          obtain ⟨h5, c', bs, h6, h7, h8, o', h9, h10⟩ := ih memo t1 _ us r t (by rw [h2, ho]) h3 h
          exact ⟨h5.trans h2, c', b :: bs, h6, h7, by rw [h8]; exact List.append_assoc _ _ _, o', .silent h4 h9, h10⟩

/-- The values of one place. -/
def onlyOf : Res (Option Value) → Res (List Value)
  | .ok o => .ok o.toList
  | .panic e => .panic e

theorem told_one {α : Type} {P : α → Res (Option Value) → Node → Prop} {v : α} {o : Res (Option Value)} {b : Node} (h : P v o b) :
    Told true P [v] (onlyOf o) [b] := by
  cases o with
  | panic e => exact .failure h
  | ok a =>
    cases a
    · exact .silent h .nobody
    · exact .enough rfl h

/-- `first` over any number of places. -/
theorem firstMerge_told {α : Type} {P : α → Res (Option Value) → Node → Prop} {f : α → M (Option Value)} (hf : ∀ v, Adds (P v) (f v))
    (vs : List α) : AddsAll (fun o bs => ∃ found, Told true P vs found bs ∧ o = headOf found) (do
      let r ← firstLoop f vs
      match r with
      | some v => do report (.result v); pure (some v)
      | none => pure none) := by
  intro s c us r t ho ht h
  rw [bind_def] at h
  cases h1 : firstLoop f vs s with
  | none => rw [h1] at h; cases h
  | some x =>
    obtain ⟨r1, t1⟩ := x
    rw [h1] at h
    obtain ⟨h2, c', bs, h3, h4, h5, h6⟩ := firstLoop_told hf vs s c us r1 t1 ho ht h1
    cases r1 with
    | panic e => cases h; exact ⟨h2, c', bs, h3, h4.1, h5, h6⟩
    | ok o =>
      cases o with
      | none => cases h; exact ⟨h2, c', bs, h3, h4.1, h5, h6⟩
      | some y =>
        dsimp only at h
        rw [bind_ok (report_on (by rw [h2, ho]) h3)] at h
        cases h
        exact ⟨h2, _, bs, rfl, h4.1, h5, h6⟩

/-- The other strategies over any number of places. -/
theorem otherMerge_told {α : Type} {P : α → Res (Option Value) → Node → Prop} {f : α → M (Option Value)} (hf : ∀ v, Adds (P v) (f v))
    (st : Strategy) (vs : List α) : Adds (fun o m => m.kind = .merge st ∧
      (m.event = .result ↔ ∃ v, o = .ok (some v)) ∧ (∀ v, o = .ok (some v) → m.value = some v) ∧
        ∃ found, Told false P vs found m.branches ∧ o = carried st none found)
      (withNode (.new (.merge st)) (do
        let r ← mergeLoop st f none vs
        match r with
        | some v => do report (.result v); pure (some v)
        | none => pure none)) := by
  apply withNode_adds
  intro s us r t ho ht h
  rw [bind_def] at h
  cases h1 : mergeLoop st f none vs s with
  | none => rw [h1] at h; cases h
  | some x =>
    obtain ⟨r1, t1⟩ := x
    rw [h1] at h
    obtain ⟨h2, c', bs, h3, h4, h5, h6⟩ := mergeLoop_told hf st vs none s _ us r1 t1 ho ht h1
    have h9 : c'.branches = bs := h5
    have hk : c'.kind = .merge st := h4.1.1
    have he : c'.event = .none := h4.2
    rw [← h9] at h6
    cases r1 with
    | panic e => cases h; exact ⟨h2, c', h3, hk, by rw [he]; simp, by simp, h6⟩
    | ok o =>
      cases o with
      | none => cases h; exact ⟨h2, c', h3, hk, by rw [he]; simp, by simp, h6⟩
      | some y =>
        dsimp only at h
        rw [bind_ok (report_on (by rw [h2, ho]) h3)] at h
        cases h
        exact ⟨h2, _, rfl, hk, by simp [Node.result, Node.event], by simp [Node.result, Node.value], h6⟩

theorem Adds.all {P : Res (Option Value) → Node → Prop} {m : M (Option Value)} (h : Adds P m) :
    AddsAll (fun o bs => ∃ b, bs = [b] ∧ P o b) m := by
  intro s c us r t ho ht hm
  obtain ⟨h1, b, h2, h3⟩ := h s c us r t ho ht hm
  exact ⟨h1, _, [b], h2, ⟨rfl, rfl⟩, rfl, b, rfl, h3⟩

theorem AddsAll.mono {P Q : Res (Option Value) → List Node → Prop} {m : M (Option Value)} (h : AddsAll P m)
    (hq : ∀ o bs, P o bs → Q o bs) : AddsAll Q m := by
  intro s c us r t ho ht hm
  obtain ⟨h1, c', bs, h2, h3, h4, h5⟩ := h s c us r t ho ht hm
  exact ⟨h1, c', bs, h2, h3, h4, hq _ _ h5⟩

theorem section_of_few {α : Type} {st : Strategy} {P : α → Res (Option Value) → Node → Prop} {vs : List α} {o : Res (Option Value)}
    {bs : List Node} {found : Res (List Value)} (hv : st = .first ∨ vs.length ≤ 1) (h : Told true P vs found bs)
    (hc : Comes st vs.length found o) : Section st P vs o bs :=
  ⟨found, hc, fun _ => h, fun h1 h2 => by rcases hv with hv | hv; exact absurd hv h1; omega⟩

theorem comes_head {st : Strategy} (hst : st = .first) (n : Nat) (found : Res (List Value)) : Comes st n found (headOf found) := by
  rcases found with (_ | ⟨v, vs⟩) | e
  · exact .nothing
  · exact .first hst
  · exact .fails

/-- One place, whatever is then done with its answer. -/
theorem oneMerge_told {α : Type} {P : α → Res (Option Value) → Node → Prop} {f : α → M (Option Value)} (hf : ∀ v, Adds (P v) (f v))
    (st : Strategy) (hst : st ≠ .first) (v : α) : AddsAll (Section st P [v]) (do
      match ← f v with
      | some x => pure (some (st.single x))
      | none => pure none) := by
  intro s c us r t ho ht h
  rw [bind_def] at h
  cases h1 : f v s with
  | none => rw [h1] at h; cases h
  | some x =>
    obtain ⟨r1, t1⟩ := x
    rw [h1] at h
    obtain ⟨h2, b, h3, h4⟩ := hf v s c us r1 t1 ho ht h1
    cases r1 with
    | panic e => cases h; exact ⟨h2, _, [b], h3, ⟨rfl, rfl⟩, rfl, section_of_few (.inr (Nat.le_refl _)) (told_one h4) .fails⟩
    | ok o =>
      cases o with
      | none => cases h; exact ⟨h2, _, [b], h3, ⟨rfl, rfl⟩, rfl, section_of_few (.inr (Nat.le_refl _)) (told_one h4) .nothing⟩
      | some x => cases h; exact ⟨h2, _, [b], h3, ⟨rfl, rfl⟩, rfl, section_of_few (.inr (Nat.le_refl _)) (told_one h4) (.single hst)⟩

theorem mergeM_section {α : Type} {P : α → Res (Option Value) → Node → Prop} {f : α → M (Option Value)} (hf : ∀ v, Adds (P v) (f v))
    (st : Strategy) (vs : List α) : AddsAll (Section st P vs) (mergeM st vs f) := by
  have none_case : AddsAll (Section st P []) (pure none) := by
    intro s c us r t ho ht h
    cases h
    exact ⟨rfl, c, [], ht, ⟨rfl, rfl⟩, (List.append_nil _).symm, section_of_few (.inr (Nat.zero_le _)) .nobody .nothing⟩
  unfold mergeM mergeLookup
  split
  · exact none_case
  · refine (hf _).all.mono (fun o bs ⟨b, hb, h⟩ => hb ▸ section_of_few (.inl rfl) (told_one h) ?_)
    rcases o with (_ | v) | e
    · exact .nothing
    · exact .first rfl
    · exact .fails
  · exact (firstMerge_told hf _).mono (fun o bs ⟨found, h, ho⟩ => section_of_few (.inl rfl) h (ho ▸ comes_head rfl _ _))
  · rename_i h1
    exact oneMerge_told hf _ h1 _
  · rename_i h1 h0 h3 h2
    have hst : st ≠ .first := h1
    have hl : 2 ≤ vs.length := by
      rcases vs with _ | ⟨a, _ | ⟨b, vs⟩⟩
      · exact absurd rfl h0
      · exact absurd rfl (h3 a)
      · simp
    refine (otherMerge_told hf st vs).all.mono (fun o bs ⟨b, hb, h4, h5, h6, found, h7, h8⟩ => ⟨found, ?_, fun h => ?_, fun _ _ => ⟨b, hb, h4, h5, h6, h7⟩⟩)
    · rw [h8]
      rcases found with (_ | ⟨x, xs⟩) | e
      · exact .nothing
      · have : carried st none (.ok (x :: xs)) = .ok (some (xs.foldl st.merge (st.convertValue x))) := by
          simp only [carried, foldFrom, foldFrom_some]
        rw [this]
        exact .merged hst hl
      · exact .fails
    · rcases h with h | h
      · exact absurd h hst
      · omega

/-! ### One place -/

/-- `m` ends by reporting what it found. -/
def Ends (p : Prov) (k : Key) (m : M (Option Value)) : Prop :=
  ∀ (s : St) (v : Option Value) (t : St), s.on.isNone = false → IsAt s.tree → m s = some (.ok v, t) →
    ∃ c us, t.tree = .at c us ∧ SaysFound p k (.ok v) c

theorem kept_of_NI {α : Type} {m : M α} (h : NI α m m) {s t : St} {r : Res α} (ht : IsAt s.tree) (hm : m s = some (r, t)) :
    Kept s t := by
  have hk := h s s rfl ht ht
  rw [hm] at hk
  cases r with
  | ok a => exact hk.2.2.1
  | panic e => exact hk.2.1

theorem Ends.bind {p : Prov} {k : Key} {α : Type} {m : M α} {f : α → M (Option Value)} (hm : NI α m m) (hf : ∀ a, Ends p k (f a)) :
    Ends p k (m >>= f) := by
  intro s v t ho ht h
  rw [bind_def] at h
  cases h1 : m s with
  | none => rw [h1] at h; cases h
  | some x =>
    obtain ⟨r1, t1⟩ := x
    rw [h1] at h
    have hk := kept_of_NI hm ht h1
    cases r1 with
    | panic e => cases h
    | ok a => exact hf a t1 v t (by rw [hk.1, ho]) hk.2.right h

theorem Ends.panic (p : Prov) (k : Key) (e : Err) : Ends p k (panic e) := by
  intro s v t ho ht h
  cases h

theorem Ends.none {p : Prov} {k : Key} {n : Str} (hn : n = askedFor p k) : Ends p k (reportResult n none) := by
  intro s w t ho ht h
  obtain ⟨c, us, hc⟩ := tree_cases ht
  unfold reportResult at h
  dsimp only at h
  rw [bind_ok (report_on ho hc)] at h
  cases h
  exact ⟨_, _, rfl, fun _ => ⟨rfl, hn⟩, fun _ h => nomatch h⟩

theorem Ends.reportFound {p : Prov} {k : Key} {n : Str} (hn : n = askedFor p k) (x : Value) {y : Value} (hy : y = answerWith p k x) :
    Ends p k (do Hiera.report (.found n x); Pure.pure (some y)) := by
  intro s w t ho ht h
  obtain ⟨c, us, hc⟩ := tree_cases ht
  rw [bind_ok (report_on ho hc)] at h
  cases h
  exact ⟨_, _, rfl, (fun h => nomatch h), fun v hv => by cases hv; exact ⟨rfl, hn, x, rfl, hy⟩⟩

theorem Ends.report {p : Prov} {k : Key} {n : Str} (hn : n = askedFor p k) (hp : ∀ x, x = answerWith p k x) (v : Option Value) :
    Ends p k (reportResult n v) := by
  cases v with
  | none => exact .none hn
  | some x => exact .reportFound hn x (hp x)

theorem provLookup_ends (E : Env) (n : Nat) (p : Prov) (loc : Option Loc) (k : Key) :
    Ends p k (provLookup E (eval E n) p loc k) := by
  have hc := NI.closed E
  have hr := NI.eval E n
  unfold provLookup
  split
  · rename_i hf
    have h1 : k.root = askedFor p k := by simp only [askedFor, hf]
    have h2 : ∀ x, x = answerWith p k x := by simp only [answerWith, hf, implies_true]
    unfold dataHashLookup
    refine .bind (NI.base.dataHash E _ _ _) (fun h => ?_)
    split
    · exact .none h1
    · exact .bind (hc.interpolate hr _) (fun r => .report h1 h2 _)
  · rename_i hf
    have h1 : k.source = askedFor p k := by simp only [askedFor, hf]
    have h2 : ∀ x, k.bury x = answerWith p k x := by simp only [answerWith, hf, implies_true]
    unfold dataDigLookup
    refine .bind (hc.loadOnce _ _) (fun f => ?_)
    split
    · refine .bind (hc.emitDig _ _) (fun _ => .bind (NI.core.lift _) (fun r => ?_))
      split
      · exact .reportFound h1 _ (h2 _)
      · exact .none h1
    · exact .panic _ _ _
    · exact .none h1
  · rename_i hf
    have h1 : k.root = askedFor p k := by simp only [askedFor, hf]
    have h2 : ∀ x, x = answerWith p k x := by simp only [answerWith, hf, implies_true]
    unfold lookupKeyLookup
    dsimp only
    split
    · exact .bind (hc.emitKey _ _ _) (fun _ => .report h1 h2 _)
    · split
      · exact .bind (hc.emitKey _ _ _) (fun _ => .bind NI.core.view (fun _ => .report h1 h2 _))
      · refine .bind (hc.loadOnce _ _) (fun f => ?_)
        split
        · exact .bind (hc.emitKey _ _ _) (fun _ => .bind (hr.lk _ _ _) (fun _ => .report h1 h2 _))
        · exact .panic _ _ _
        · exact .none h1
  · exact .panic _ _ _

theorem provLookup_told (E : Env) (n : Nat) (p : Prov) (loc : Option Loc) (k : Key) (s : St) (c : Node) (us : List Node)
    (r : Res (Option Value)) (t : St) (ho : s.on.isNone = false) (hs : s.tree = .at c us)
    (h : provLookup E (eval E n) p loc k s = some (r, t)) :
    t.on = s.on ∧ ∃ b, t.tree = .at b us ∧ b.kind = c.kind ∧ SaysFound p k r b := by
  have ht : IsAt s.tree := hs ▸ isAt_at _ _
  have hk := kept_of_NI ((NI.base.asking E).provLookup (NI.eval E n) p loc k (fun _ _ => trivial)) ht h
  refine ⟨hk.1, ?_⟩
  obtain ⟨c', us', hc'⟩ := tree_cases hk.2.right
  have h2 := hk.2
  rw [hs, hc'] at h2
  obtain ⟨rfl, h3⟩ := h2
  refine ⟨c', hc', h3.1, ?_⟩
  cases r with
  | panic e => exact ⟨(fun h => nomatch h), fun _ h => nomatch h⟩
  | ok v =>
    obtain ⟨c2, us2, h4, h5⟩ := provLookup_ends E n p loc k s v t ho ht h
    rw [hc'] at h4
    cases h4
    exact h5

theorem invokeWithLocation_told (E : Env) (n : Nat) (p : Prov) (k : Key) (l : Loc) :
    Adds (LocTold p k l) (invokeWithLocation E (eval E n) p k l) := by
  unfold invokeWithLocation
  apply withNode_adds
  intro s us r t ho ht h
  unfold LocTold
  by_cases hl : l.exists_ = true
  · rw [if_pos hl] at h
    obtain ⟨h1, b, h2, h3, h4⟩ := provLookup_told E n p (some l) k s _ us r t ho ht h
    exact ⟨h1, b, h2, h3, by rw [if_pos hl]; exact h4⟩
  · rw [if_neg hl, bind_ok (report_on ho ht)] at h
    cases h
    exact ⟨rfl, _, rfl, rfl, by rw [if_neg hl]; exact ⟨rfl, rfl, rfl⟩⟩

theorem fullName_is (p : Prov) : p.fullName = providerName p.entry := by
  unfold Prov.fullName providerName
  rcases p.entry.function with _ | ⟨k, n⟩
  · rfl
  · cases k <;> rfl

theorem mergeLocations_told (E : Env) (n : Nat) (k : Key) (st : Strategy) (p : Prov) :
    Adds (ProvTold st k p) (mergeLocations E (eval E n) k st p) := by
  unfold mergeLocations
  rw [fullName_is]
  apply withNode_adds
  intro s us r t ho ht h
  unfold ProvTold
  cases hp : p.entry.locations with
  | none =>
    rw [hp] at h
    obtain ⟨h1, b, h2, h3, h4⟩ := provLookup_told E n p none k s _ us r t ho ht h
    exact ⟨h1, b, h2, h3, h4⟩
  | some ls =>
    rw [hp] at h
    rcases ls with _ | ⟨l, _ | ⟨l', ls⟩⟩
    · obtain ⟨h1, c', bs, h2, h3, h4, h5⟩ := mergeM_section (invokeWithLocation_told E n p k) st [] s _ us r t ho ht h
      have h6 : c'.branches = bs := h4
      exact ⟨h1, c', h2, h3.1, h6 ▸ h5⟩
    · obtain ⟨h1, b, h2, h3⟩ := invokeWithLocation_told E n p k l s _ us r t ho ht h
      exact ⟨h1, _, h2, rfl, b, rfl, h3⟩
    · obtain ⟨h1, c', bs, h2, h3, h4, h5⟩ := mergeM_section (invokeWithLocation_told E n p k) st _ s _ us r t ho ht h
      have h6 : c'.branches = bs := h4
      exact ⟨h1, c', h2, h3.1, h6 ▸ h5⟩

/-- C63: with an explainer, asking the providers of a hierarchy adds to the current node of the explanation exactly one
node per provider that was asked, in this order, and below it exactly one node per location that was considered; for
strategies other than `first`, these are all providers and all locations unless there is a failure, and they are below a
node for the merge when there is more than one; with `first` it is those up to the first one that answers. Each node
says whether its location exists and whether there was an answer, for which key, and with which value; and what these
nodes say accounts for the answer: it is what the strategy makes of their values. -/
theorem C63_told (E : Env) (n : Nat) (k : Key) (ps : List Prov) (st : Strategy) (v : View) (x : ExplOpts) (cur : Node)
    (ups : List Node) (r : Res (Option Value)) (s : St)
    (h : mergeHierarchy E (eval E n) k ps st ⟨v, some x, .at cur ups⟩ = some (r, s)) :
    ∃ cur' bs, s.tree = .at cur' ups ∧ cur'.kind = cur.kind ∧ cur'.branches = cur.branches ++ bs ∧
      Section st (ProvTold st k) ps r bs := by
  obtain ⟨_, c', bs, h1, h2, h3⟩ := mergeM_section (mergeLocations_told E n k st) st ps _ cur ups r s rfl rfl h
  exact ⟨c', bs, h1, h2.1, h3⟩

/-! A concrete case: three levels, of which the first does not have the key and the last has an additional file that does
not exist. -/

/-- The files of three levels. -/
def toldWorld : Env := mk (cfg [])
  [("/h/1".toList, .map [(s "y", .int 1)]), ("/h/2".toList, .map [(s "x", .int 2)]), ("/h/3".toList, .map [(s "x", .int 3)])]

/-- The providers of three levels. -/
def toldProvs : List Prov :=
  let yaml (i : Nat) (ls : List Loc) : Prov :=
    ⟨i, { root := [], function := some (.dataHash, "yaml_data".toList), locations := some ls }⟩
  [yaml 0 [.path [] "/h/1".toList true], yaml 1 [.path [] "/h/2".toList true],
   yaml 2 [.path [] "/h/3".toList true, .path [] "/h/4".toList false]]

/-- Kind (as a number) and event of a node and of what is below it, down to some depth. -/
def sketch : Nat → Node → List (Nat × Nat × Event)
  | 0, _ => []
  | d + 1, n => (d, (match n.kind with | .merge _ => 1 | .dataProvider _ => 2 | .location _ => 3 | _ => 0), n.event) ::
      n.branches.flatMap (sketch d)

/-- The sketch of the explanation of the key `x` with a strategy. -/
def toldSketch (st : Strategy) : Option (List (Nat × Nat × Event)) :=
  (mergeHierarchy toldWorld (eval toldWorld 5) ⟨"x".toList, [.name "x".toList]⟩ toldProvs st
    (World.st [] (some ⟨false, false⟩))).map
    (fun r => match r.2.tree with | .at c _ => c.branches.flatMap (sketch 5) | .off _ => [])

example : toldSketch .first = some [
    (4, 2, .none), (3, 3, .notFound),
    (4, 2, .none), (3, 3, .found)] := by decide +kernel
example : toldSketch .unique = some [
    (4, 1, .result),
      (3, 2, .none), (2, 3, .notFound),
      (3, 2, .none), (2, 3, .found),
      (3, 2, .none), (2, 1, .result), (1, 3, .found), (1, 3, .locationNotFound)] := by decide +kernel

end Hiera
