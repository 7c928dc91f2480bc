/- C90: what an explanation tells about keys with several segments. -/
import Verif.Spec.DigTold
import Verif.Props.Dotted
import Verif.Props.Explain
import Verif.Props.ExplainTold

set_option autoImplicit false

namespace Hiera

open Value Spec World

theorem follow_wf {p : Part} {v w : Value} (hv : v.WF) (h : Follow p v w) : w.WF := by
  cases h with
  | @elem es n _ h =>
    exact WF_arr.1 hv _ (List.mem_of_getElem? h)
  | byName h => exact (Entries.WF_of_mem hv h).2
  | byInt h => exact (Entries.WF_of_mem hv h).2

theorem shown_text (p : Part) : Shown p p.text := by cases p <;> rfl

/-- One segment. -/
theorem segment_told (p : Part) (v : Option Value) {s : St} {c : Node} {us : List Node}
    (ho : s.on.isNone = false) (ht : s.tree = .at c us) :
    ∃ b, withNode (.new (.segment p)) (digSeg p v) s =
        some (.ok (v.bind (digSegment p)), { s with tree := .at (c.appendBranch b) us }) ∧
      SegTold p (v.bind (digSegment p)) b := by
  rw [withNode_on (by rw [ho]; decide) ht]
  obtain ⟨b, h, hb⟩ : ∃ b, digSeg p v { s with tree := .at (.new (.segment p)) (c :: us) } =
      some (.ok (v.bind (digSegment p)), { s with tree := .at b (c :: us) }) ∧ SegTold p (v.bind (digSegment p)) b := by
    unfold digSeg
    cases hd : v.bind (digSegment p) with
    | none =>
      refine ⟨_, bind_ok (report_on (s := { s with tree := .at (.new (.segment p)) (c :: us) }) ho rfl), ?_⟩
      exact ⟨rfl, shown_text p, rfl, rfl, rfl, rfl⟩
    | some w =>
      refine ⟨_, bind_ok (report_on (s := { s with tree := .at (.new (.segment p)) (c :: us) }) ho rfl), ?_⟩
      exact ⟨rfl, shown_text p, rfl, rfl, rfl, rfl⟩
  rw [h]
  exact ⟨b, rfl, hb⟩

/-- The loop over the segments. -/
theorem digLoop_told (ps : List Part) : ∀ (v : Option Value) (_ : ∀ x, v = some x → x.WF) (s : St) (c : Node) (us : List Node),
    s.on.isNone = false → s.tree = .at c us → c.texts = [] →
    ∃ o bs, digLoop ps v s = some (.ok o, { s with tree := .at (.mk c.kind c.key c.event c.value c.texts (c.branches ++ bs)) us }) ∧
      DigTold ps v o bs := by
  induction ps with
  | nil =>
    intro v hv s c us ho ht hx
    refine ⟨v, [], ?_, .done⟩
    obtain ⟨k, y, e, w, t, b⟩ := c
    show some (Res.ok v, s) = _
    obtain ⟨sv, son, st⟩ := s
    cases ht
    simp only [Node.branches, List.append_nil]
    rfl
  | cons p ps ih =>
    intro v hv s c us ho ht hx
    obtain ⟨b, h1, h2⟩ := segment_told p v ho ht
    unfold digLoop
    cases hd : v.bind (digSegment p) with
    | none =>
      rw [hd] at h1 h2
      rw [bind_ok h1]
      refine ⟨none, [b], rfl, .nowhere ?_ h2⟩
      intro x w hx hf
      subst hx
      rw [Option.bind_some, (follow_iff p x w (hv x rfl)).2 hf] at hd
      cases hd
    | some w =>
      rw [hd] at h1 h2
      rw [bind_ok h1]
      cases v with
      | none => cases hd
      | some x =>
        have hf := (follow_iff p x w (hv x rfl)).1 hd
        obtain ⟨o, bs, h3, h4⟩ := ih (some w) (fun y hy => by cases hy; exact follow_wf (hv x rfl) hf)
          { s with tree := .at (c.appendBranch b) us } (c.appendBranch b) us ho rfl hx
        refine ⟨o, b :: bs, ?_, .follow hf h2 h4⟩
        dsimp only
        rw [h3]
        simp only [Node.appendBranch, Node.kind, Node.key, Node.event, Node.value, Node.texts, Node.branches, List.append_assoc, List.singleton_append]

/-- C90: with an explainer, following the segments of a key adds one node for the key, with a node for each segment up to the
first that leads nowhere. -/
theorem C90_dig (k : Key) (hk : k.parts.length ≠ 1) (v : Option Value) (hv : ∀ x, v = some x → x.WF) (w : View) (x : ExplOpts)
    (c : Node) (us : List Node) :
    ∃ o b, dig k v ⟨w, some x, .at c us⟩ = some (.ok o, ⟨w, some x, .at (c.appendBranch b) us⟩) ∧ SubTold k v o b := by
  unfold dig
  rw [if_neg hk, withNode_on (c := c) (us := us) (by intro h; cases h) rfl]
  obtain ⟨o, bs, h1, h2⟩ := digLoop_told k.parts.tail v hv ⟨w, some x, .at (.new (.subLookup k)) (c :: us)⟩
    (.new (.subLookup k)) (c :: us) rfl rfl rfl
  dsimp only at h1 ⊢
  rw [h1]
  exact ⟨o, _, rfl, rfl, ⟨rfl, rfl, rfl, rfl⟩, h2⟩

/-- The explainer stays, at the same node. -/
theorem kept_at {α : Type} {m : M α} (hm : NI α m m) {w : View} {x : Option ExplOpts} {c : Node} {us : List Node} {r : Res α} {t : St}
    (h : m ⟨w, x, .at c us⟩ = some (r, t)) : t.on = x ∧ ∃ c', t.tree = .at c' us := by
  have hk := hm ⟨w, x, .at c us⟩ ⟨w, x, .at c us⟩ rfl (isAt_at _ _) (isAt_at _ _)
  rw [h] at hk
  have key : Kept ⟨w, x, .at c us⟩ t := by
    rcases hk.elim with ⟨h1, h2⟩ | ⟨a, t, t', h1, h2, h3, h4, h5⟩ | ⟨e, t, t', h1, h2, h4, h5⟩
    · cases h1
    · cases h1; exact h4
    · cases h1; exact h4
  refine ⟨key.1, ?_⟩
  obtain ⟨c1, us1, hc⟩ := tree_cases key.2.right
  have := key.2
  rw [hc] at this
  exact ⟨c1, by rw [hc, this.1]⟩

/-- C90: with an explainer that is told about data, a lookup of a key with several segments goes as one of the first segment, with
the same explanation. If that gives something, the explanation then has one more node at the end, about following the
other segments in what was given. If it gives nothing, there is no such node, or one that tells that there is nothing. -/
theorem C90_dotted (E : Env) (n : Nat) (k : Key) (hk : k.parts.length ≠ 1) (hr : k.root ≠ "lookup_options".toList) (o : Entries)
    (w : View) (x : ExplOpts) (hx : x.onlyOptions = false) (c : Node) (us : List Node)
    (v : Option Value) (hv : ∀ y, v = some y → y.WF) (t : St)
    (h : (eval E n).lookup (firstOf k) o ⟨w, some x, .at c us⟩ = some (.ok v, t)) :
    ∃ c', t.tree = .at c' us ∧
      ((v = none ∧ (eval E n).lookup k o ⟨w, some x, .at c us⟩ = some (.ok none, t)) ∨
        ∃ r b, (eval E n).lookup k o ⟨w, some x, .at c us⟩ = some (.ok r, { t with tree := .at (c'.appendBranch b) us }) ∧
          SubTold k v r b) := by
  obtain ⟨_, c', hc', _⟩ := C28_balanced E n _ o w (some x) c us _ _ h
  refine ⟨c', hc', ?_⟩
  cases n with
  | zero => cases h
  | succ n =>
    have h' : lookup E (eval E n) (firstOf k) o ⟨w, some x, .at c us⟩ = some (.ok v, t) := h
    show (v = none ∧ lookup E (eval E n) k o ⟨w, some x, .at c us⟩ = some (.ok none, t)) ∨
      ∃ r b, lookup E (eval E n) k o ⟨w, some x, .at c us⟩ = some (.ok r, { t with tree := .at (c'.appendBranch b) us }) ∧ SubTold k v r b
    unfold lookup at h' ⊢
    rw [if_neg (show (firstOf k).root ≠ _ from hr)] at h'
    rw [if_neg hr]
    cases ha : callLk E (eval E n) E.top o k.root ⟨w, some x, .at c us⟩ with
    | none => rw [bind_none (show callLk E (eval E n) E.top o (firstOf k).root _ = none from ha)] at h'; cases h'
    | some q =>
      obtain ⟨a | e, u⟩ := q
      · rw [bind_ok (show callLk E (eval E n) E.top o (firstOf k).root _ = _ from ha)] at h'
        rw [bind_ok ha]
        obtain ⟨hu, c1, hc1⟩ := kept_at ((NI.closed E).callLk (NI.eval E n) E.top o k.root) ha
        cases a with
        | none => cases h'; exact .inl ⟨rfl, rfl⟩
        | some y =>
          refine .inr ?_
          dsimp only at h' ⊢
          have body : ∀ (g : View) (t1 : St),
              (interpolate E (eval E n) true y >>= fun r => dig (firstOf k) r) ⟨g, some x, .at c1 us⟩ = some (.ok v, t1) →
              ∃ c2 r z, t1.tree = .at c2 us ∧ (interpolate E (eval E n) true y >>= fun r => dig k r) ⟨g, some x, .at c1 us⟩ =
                some (.ok r, { t1 with tree := .at (c2.appendBranch z) us }) ∧ SubTold k v r z := by
            intro g t1 hb
            cases hi : interpolate E (eval E n) true y ⟨g, some x, .at c1 us⟩ with
            | none => rw [bind_none hi] at hb; cases hb
            | some q =>
              obtain ⟨b | e, t2⟩ := q
              · rw [bind_ok hi] at hb
                rw [bind_ok hi]
                obtain ⟨h2, c2, hc2⟩ := kept_at ((NI.closed E).interpolate (NI.eval E n) y) hi
                have e : dig (firstOf k) b t2 = some (.ok b, t2) := rfl
                rw [e] at hb
                cases hb
                obtain ⟨v2, on2, tr2⟩ := t1
                cases h2
                cases hc2
                obtain ⟨r, z, h3, h4⟩ := C90_dig k hk _ hv v2 x c2 us
                exact ⟨c2, r, z, rfl, h3, h4⟩
              · rw [bind_panic hi] at hb; cases hb
          obtain ⟨uv, uon, utr⟩ := u
          cases hu
          cases hc1
          unfold forData at h' ⊢
          rw [bind_ok (show view _ = some (.ok _, _) from rfl)] at h' ⊢
          by_cases hm : uv.ic.mode = .data
          · rw [if_pos hm] at h' ⊢
            obtain ⟨c2, r, z, h1, h2, h3⟩ := body uv t h'
            rw [hc'] at h1
            cases h1
            exact ⟨r, z, h2, h3⟩
          · rw [if_neg hm] at h' ⊢
            have ex : explForData (some x) = some x := by simp only [explForData, hx, Bool.false_eq_true, if_false]
            unfold withCopy at h' ⊢
            rw [ex] at h' ⊢
            cases hb : (interpolate E (eval E n) true y >>= fun r => dig (firstOf k) r)
                ⟨{ uv with ic := { uv.ic with mode := .data } }, some x, .at c1 us⟩ with
            | none => rw [hb] at h'; cases h'
            | some q =>
              obtain ⟨q, t1⟩ := q
              rw [hb] at h'
              cases h'
              obtain ⟨c2, r, z, h1, h2, h3⟩ := body _ t1 hb
              have : c2 = c' := by rw [show t1.tree = .at c' us from hc'] at h1; cases h1; rfl
              subst this
              refine ⟨r, z, ?_, h3⟩
              rw [h2]
      · rw [bind_panic (show callLk E (eval E n) E.top o (firstOf k).root _ = _ from ha)] at h'; cases h'

/-- The nodes of following the segments of a key at the end of an explanation: for each, its key, event and value. -/
def Spec.lastSegments (r : Option (Res (Option Value) × St)) : Option (List (Str × Event × Option Value)) :=
  match r with
  | some (_, { tree := .at c [], .. }) => c.branches.getLast?.map (fun b => b.branches.map (fun b => (b.key, b.event, b.value)))
  | _ => none

/-- Not vacuous: two segments that lead somewhere, and one that does not. -/
example : lastSegments ((eval dottedWorld 4).lookup ⟨"m.a.1.z".toList, [.name "m".toList, .name "a".toList, .idx 1, .name "z".toList]⟩ []
    { (st [(s "v", s "y")]) with on := some ⟨false, false⟩ }) =
    some [("a".toList, .found, some (.arr [s "x", s "y"])), ("1".toList, .found, some (s "y")), ("z".toList, .notFound, none)] := by
  decide +kernel

end Hiera
