/- C97: data that refers to other keys has one meaning, up to the order of entries in hashes. -/
import Verif.Props.Referring

set_option autoImplicit false

namespace Hiera

open Value Spec

/-! ### Merges of equal values -/

mutual
theorem flattenV_congr : ∀ {v w : Value}, WF v → WF w → equals v w = true → equalsList (flattenV v) (flattenV w) = true
  | .arr es, w, hv, hw, e => by
    obtain ⟨fs, rfl, el⟩ := equals_is_arr e
    rw [flattenV, flattenV]
    exact flatten_congr (WF_arr.1 hv) (WF_arr.1 hw) el
  | .null, w, hv, hw, e => by cases w <;> simp [equals, flattenV, equalsList] at e ⊢
  | .bool _, w, hv, hw, e => by cases w <;> simp [equals, flattenV, equalsList] at e ⊢; exact e
  | .int _, w, hv, hw, e => by cases w <;> simp [equals, flattenV, equalsList] at e ⊢; exact e
  | .str _, w, hv, hw, e => by cases w <;> simp [equals, flattenV, equalsList] at e ⊢; exact e
  | .map es, w, hv, hw, e => by
    obtain ⟨fs, rfl⟩ := equals_is_map e
    rw [flattenV, flattenV, equalsList, e]
    · rfl
    all_goals intros; simp_all
  | .sensitive v, w, hv, hw, e => by
    cases w with
    | sensitive u => rw [flattenV, flattenV, equalsList, e] <;> first | rfl | (intros; simp_all)
    | _ => simp [equals] at e
  | .opaque _, w, hv, hw, e => by cases w <;> simp [equals, flattenV, equalsList] at e ⊢; exact e
theorem flatten_congr : ∀ {vs ws : List Value}, (∀ v ∈ vs, WF v) → (∀ v ∈ ws, WF v) → equalsList vs ws = true →
    equalsList (flatten vs) (flatten ws) = true
  | [], [], _, _, _ => by simp [flatten, equalsList]
  | [], _ :: _, _, _, h => by simp [equalsList] at h
  | _ :: _, [], _, _, h => by simp [equalsList] at h
  | v :: vs, w :: ws, hv, hw, h => by
    rw [equalsList, Bool.and_eq_true] at h
    rw [flatten, flatten]
    exact equalsList_append (flattenV_congr (hv v (by simp)) (hw w (by simp)) h.1)
      (flatten_congr (fun x hx => hv x (by simp [hx])) (fun x hx => hw x (by simp [hx])) h.2)
end

theorem deepChain_congr2 {vs : List Value} {r : Value} (h : DeepChain vs r) : ∀ {ws : List Value} {r' : Value}, (∀ v ∈ vs, WF v) →
    (∀ v ∈ ws, WF v) → equalsList vs ws = true → DeepChain ws r' → equals r r' = true := by
  induction h with
  | one =>
    intro ws r' hv hw e h'
    cases h' with
    | one => simpa [equalsList] using e
    | more => simp [equalsList] at e
  | @more a b c vs r hm hc hd ih =>
    intro ws r' hv hw e h'
    cases h' with
    | one => simp [equalsList] at e
    | @more a' b' c' ws r' hm' hc' hd' =>
      rw [equalsList, equalsList, Bool.and_eq_true, Bool.and_eq_true] at e
      have hc'' := deepMerged_congr2 hm (hv a (by simp)) (hw a' (by simp)) (hv b (by simp)) (hw b' (by simp)) hc hc' e.1 e.2.1 hm'
      refine ih (fun v h => ?_) (fun v h => ?_) (by rw [equalsList, hc'', e.2.2]; rfl) hd'
      · rcases List.mem_cons.1 h with rfl | h
        · exact hc
        · exact hv v (by simp [h])
      · rcases List.mem_cons.1 h with rfl | h
        · exact hc'
        · exact hw v (by simp [h])

theorem findSome_congr {k : Value} (hk : WF k) : ∀ {as bs : List Entries}, (∀ e ∈ as, WF (.map e)) → (∀ e ∈ bs, WF (.map e)) →
    equalsList (as.map .map) (bs.map .map) = true → EqO (as.findSome? (fun es => Entries.get es k)) (bs.findSome? (fun es => Entries.get es k))
  | [], [], _, _, _ => by simp [EqO]
  | [], _ :: _, _, _, h => by simp [equalsList] at h
  | _ :: _, [], _, _, h => by simp [equalsList] at h
  | a :: as, b :: bs, ha, hb, h => by
    rw [List.map_cons, List.map_cons, equalsList, Bool.and_eq_true] at h
    have q := get_equal (ha a (by simp)) (hb b (by simp)) h.1 hk
    rw [List.findSome?_cons, List.findSome?_cons]
    cases ga : Entries.get a k with
    | none =>
      rw [q.none_iff.1 ga]
      exact findSome_congr hk (fun e he => ha e (by simp [he])) (fun e he => hb e (by simp [he])) h.2
    | some x =>
      rw [ga] at q
      obtain ⟨y, gb, ey⟩ := q.some_left
      rw [gb]
      exact ey

/-- Merges of equal values are equal. -/
theorem textbook_congr {st : Str} {vs ws : List Value} {v w : Option Value} (hv : ∀ v ∈ vs, WF v) (hw : ∀ v ∈ ws, WF v)
    (e : equalsList vs ws = true) (h : Textbook st vs v) (h' : Textbook st ws w) : EqO v w := by
  cases h with
  | nothing =>
    cases ws with
    | nil => cases h'; trivial
    | cons _ _ => simp [equalsList] at e
  | @first v vs =>
    generalize hst : "first".toList = st at h'
    cases h' with
    | nothing => simp [equalsList] at e
    | first => rw [equalsList, Bool.and_eq_true] at e; exact e.1
    | unique => cases hst
    | uniqueOne => cases hst
    | hash => cases hst
    | deep => cases hst
  | @unique v w vs ls rs hl hn =>
    generalize hst : "unique".toList = st at h'
    cases h' with
    | unique hl' hn' =>
      rw [leavesL_eq hl] at hn
      rw [leavesL_eq hl'] at hn'
      rw [isNub_eq (flatten_WF _ hv) hn, isNub_eq (flatten_WF _ hw) hn', EqO, equals]
      exact uniqueFrom_congr (flatten_WF _ hv) (flatten_WF _ hw) (by simp) (by simp) (flatten_congr hv hw e) rfl
    | nothing => simp [equalsList] at e
    | first => cases hst
    | deep => cases hst
    | uniqueOne => simp [equalsList] at e
    | hash => cases hst
  | @uniqueOne es h1 h2 =>
    generalize hst : "unique".toList = st at h'
    cases h' with
    | uniqueOne => rw [equalsList, Bool.and_eq_true] at e; exact e.1
    | nothing => simp [equalsList] at e
    | first => cases hst
    | deep => cases hst
    | unique => simp [equalsList] at e
    | hash => cases hst
  | @hash as vs rs hr hg =>
    generalize hst : "hash".toList = st at h'
    generalize hws : ws = us at h'
    cases h' with
    | nothing => subst hws; simp [equalsList] at e
    | first => cases hst
    | unique => cases hst
    | uniqueOne => cases hst
    | deep => cases hst
    | @hash as' vs' rs' hr' hg' =>
      subst hws
      have q : ∀ k, WF k → EqO (Entries.get rs k) (Entries.get rs' k) := fun k hk => by
        rw [hg k hk, hg' k hk]
        exact findSome_congr hk (fun x hx => hv _ (List.mem_map_of_mem hx)) (fun x hx => hw _ (List.mem_map_of_mem hx)) e
      refine maps_equal hr hr' (fun k hk => (q k hk).none_iff) (fun k x y hk hx hy => ?_)
      have := q k hk
      rw [hx, hy] at this
      exact this
  | @deep v vs r hd =>
    generalize hst : "deep".toList = st at h'
    cases h' with
    | deep hd' => exact deepChain_congr2 hd hv hw e hd'
    | nothing => simp [equalsList] at e
    | first => cases hst
    | unique => cases hst
    | uniqueOne => cases hst
    | hash => cases hst

theorem fieldOf_congr : ∀ (fs : List Str) {a b : Value}, WF a → WF b → equals a b = true → EqO (fieldOf fs a) (fieldOf fs b)
  | [], _, _, _, _, e => e
  | f :: fs, a, b, ha, hb, e => by
    cases a with
    | map es =>
      obtain ⟨es', rfl⟩ := equals_is_map e
      have q := get_equal ha hb e (k := .str f) trivial
      unfold fieldOf Entries.getS
      cases ga : Entries.get es (.str f) with
      | none => rw [q.none_iff.1 ga]; trivial
      | some x =>
        rw [ga] at q
        obtain ⟨y, gb, ey⟩ := q.some_left
        rw [gb]
        exact fieldOf_congr fs (Entries.WF_of_get ha ga) (Entries.WF_of_get hb gb) ey
    | _ =>
      cases b with
      | map es => have := equals_symm ha hb e; simp [equals] at this
      | _ => trivial

theorem mergedBy_one {ls : List Level} {key : Str} {opts : Entries} {st st' : Str} (h : MergedBy ls key opts st) (h' : MergedBy ls key opts st') :
    st = st' := by
  cases h with
  | asked h1 =>
    cases h' with
    | asked h2 => rw [h1] at h2; cases h2; rfl
    | said h2 _ => rw [h1] at h2; cases h2
    | default h2 _ => rw [h1] at h2; cases h2
  | said h1 h1' =>
    cases h' with
    | asked h2 => rw [h1] at h2; cases h2
    | said _ h2 => rw [h1'] at h2; cases h2; rfl
    | default _ h2 => rw [h1'] at h2; cases h2
  | default h1 h1' =>
    cases h' with
    | asked h2 => rw [h1] at h2; cases h2
    | said _ h2 => rw [h1'] at h2; cases h2
    | default _ h2 => rfl

/-! ### Meanings -/

theorem okL_iff : ∀ {ts : List Template}, OkL ts ↔ ∀ t ∈ ts, t.Ok
  | [] => by simp [OkL]
  | t :: ts => by rw [OkL, okL_iff (ts := ts), List.forall_mem_cons]

theorem usesL_of {p : DataPiece} {P : Prop} : ∀ {ts : List Template}, p ∈ usesL ts → (∀ t ∈ ts, p ∈ t.uses → P) → P
  | [], h, _ => nomatch h
  | t :: ts, h, hp => by
    rw [usesL, List.mem_append] at h
    rcases h with h | h
    · exact hp t (by simp) h
    · exact usesL_of h (fun t ht => hp t (by simp [ht]))

theorem field_WF (fs : List Str) {v : Option Value} (h : ∀ w, v = some w → WF w) : WF ((v.bind (fieldOf fs)).getD (.str [])) := by
  cases v with
  | none => trivial
  | some v =>
    cases hf : fieldOf fs v with
    | none => simp only [Option.bind_some, hf]; trivial
    | some w =>
      simp only [Option.bind_some, hf]
      exact wf_field fs (h v rfl) hf

theorem WF_entries {es : List (Str × Template)} {vs : Entries} (h : vs.map (·.1) = es.map (fun e => .str e.1) ∧ ∀ e ∈ vs, WF e.2)
    (hn : (es.map (·.1)).Nodup) : WF (.map vs) := by
  have hk : ∀ e ∈ vs, ∃ s, e.1 = .str s := fun e he => by
    have : e.1 ∈ vs.map (·.1) := List.mem_map_of_mem he
    rw [h.1] at this
    obtain ⟨x, _, hx⟩ := List.mem_map.1 this
    exact ⟨_, hx.symm⟩
  refine WF_map.2 ⟨fun e he => ⟨?_, h.2 e he⟩, ?_⟩
  · obtain ⟨s, hs⟩ := hk e he
    rw [hs]
    trivial
  · have h2 : (vs.map (·.1)).Pairwise (fun a b => equals a b = false) := by
      rw [h.1, List.pairwise_map]
      rw [List.Nodup, List.pairwise_map] at hn
      exact hn.imp (fun hne => by simpa [equals] using hne)
    exact List.pairwise_map.1 h2

theorem textIn_congr {E : Env} (hE : ∀ a b, WF a → WF b → equals a b = true → E.render a = E.render b) {v w : Option Value}
    (hv : ∀ x, v = some x → WF x) (hw : ∀ x, w = some x → WF x) (fs : List Str) (h : EqO v w) :
    textIn E (v.bind (fieldOf fs)) = textIn E (w.bind (fieldOf fs)) := by
  cases v with
  | none => rw [h.none_iff.1 rfl]
  | some v =>
    obtain ⟨w, rfl, e⟩ := h.some_left
    rw [Option.bind_some, Option.bind_some]
    have q := fieldOf_congr fs (hv v rfl) (hw w rfl) e
    cases hf : fieldOf fs v with
    | none => rw [q.none_iff.1 hf]
    | some x =>
      rw [hf] at q
      obtain ⟨y, hy, e'⟩ := q.some_left
      have wx := wf_field fs (hv v rfl) hf
      have wy := wf_field fs (hw w rfl) hy
      rw [hy]
      have hr := hE x y wx wy e'
      cases x with
      | str a =>
        cases y with
        | str b => simpa [equals, textIn] using e'
        | _ => simp [equals] at e'
      | _ =>
        cases y with
        | str b => simp [equals] at e'
        | _ => exact hr

theorem field_congr {v w : Option Value} (hv : ∀ x, v = some x → WF x) (hw : ∀ x, w = some x → WF x) (fs : List Str) (h : EqO v w) :
    equals ((v.bind (fieldOf fs)).getD (.str [])) ((w.bind (fieldOf fs)).getD (.str [])) = true := by
  cases v with
  | none => rw [h.none_iff.1 rfl]; rfl
  | some v =>
    obtain ⟨w, rfl, e⟩ := h.some_left
    rw [Option.bind_some, Option.bind_some]
    have q := fieldOf_congr fs (hv v rfl) (hw w rfl) e
    cases hf : fieldOf fs v with
    | none => rw [q.none_iff.1 hf]; rfl
    | some x =>
      rw [hf] at q
      obtain ⟨y, hy, e'⟩ := q.some_left
      rw [hy]
      exact e'

set_option linter.unusedSectionVars false

section
variable {E : Env} {sc : Scope} {ls : List Sheet} {K : Str → Prop}
  (hok : ∀ k, K k → ∀ t ∈ templatesOf ls k, t.Ok)
  (hcl : ∀ k, K k → ∀ t ∈ templatesOf ls k, ∀ x fs, DataPiece.key x fs ∈ t.uses → K x)
include hok hcl

mutual
theorem meant_WF : ∀ {t : Template} {v : Value}, Meant E sc ls t v → t.Ok → (∀ x fs, DataPiece.key x fs ∈ t.uses → K x) → WF v
  | _, _, .plain, h, _ => h.2
  | _, _, .text _, _, _ => trivial
  | _, _, .alias (x := x) (fs := fs) (v := v) ha, _, hk =>
    field_WF fs (answered_WF ha (hk x fs (by simp [Template.uses])))
  | _, _, .arr h, ho, hk => WF_arr.2 (meantL_WF h ho hk)
  | _, _, .map h, ho, hk => WF_entries (meantE_WF h ho.1 hk) ho.2
theorem meantL_WF : ∀ {ts : List Template} {vs : List Value}, MeantL E sc ls ts vs → OkL ts → (∀ x fs, DataPiece.key x fs ∈ usesL ts → K x) →
    ∀ v ∈ vs, WF v
  | _, _, .nil, _, _ => fun _ h => nomatch h
  | _, _, .cons h hs, ho, hk =>
    List.forall_mem_cons.2 ⟨meant_WF h ho.1 (fun x fs hx => hk x fs (by simp [usesL, hx])),
      meantL_WF hs ho.2 (fun x fs hx => hk x fs (by simp [usesL, hx]))⟩
theorem meantE_WF : ∀ {es : List (Str × Template)} {vs : Entries}, MeantE E sc ls es vs → OkE es →
    (∀ x fs, DataPiece.key x fs ∈ usesE es → K x) → vs.map (·.1) = es.map (fun e => .str e.1) ∧ ∀ e ∈ vs, WF e.2
  | _, _, .nil, _, _ => ⟨rfl, fun _ h => nomatch h⟩
  | _, _, .cons h hs, ho, hk =>
    have ih := meantE_WF hs ho.2.2 (fun x fs hx => hk x fs (by simp [usesE, hx]))
    ⟨by simp [ih.1], List.forall_mem_cons.2 ⟨meant_WF h ho.2.1 (fun x fs hx => hk x fs (by simp [usesE, hx])), ih.2⟩⟩
theorem answered_WF : ∀ {key : Str} {opts : Entries} {v : Option Value}, Answered E sc ls key opts v → K key → ∀ w, v = some w → WF w
  | key, _, _, .merge h _ ht, hk =>
    textbook_WF (meantL_WF h (okL_iff.2 (hok key hk)) (fun x fs hx => usesL_of hx (fun t ht hx => hcl key hk t ht x fs hx))) ht
end

variable (hE : ∀ a b, WF a → WF b → equals a b = true → E.render a = E.render b)
include hE

mutual
theorem meant_one : ∀ {t : Template} {v : Value}, Meant E sc ls t v → t.Ok → (∀ x fs, DataPiece.key x fs ∈ t.uses → K x) →
    ∀ w, Meant E sc ls t w → equals v w = true
  | _, _, .plain, h, _ => fun w h' => by cases h'; exact equals_refl h.2
  | _, _, .text h, _, hk =>
    have ih := meantText_one h hk
    fun w h' => by cases h' with | text h' => rw [ih _ h']; exact equals_refl trivial
  | _, _, .alias (x := x) (fs := fs) ha, _, hk =>
    have hx : K x := hk x fs (by simp [Template.uses])
    have ih := answered_one ha hx
    fun w h' => by
      cases h' with
      | «alias» ha' => exact field_congr (answered_WF hok hcl ha hx) (answered_WF hok hcl ha' hx) fs (ih _ ha')
  | _, _, .arr h, ho, hk =>
    have ih := meantL_one h ho hk
    fun w h' => by cases h' with | arr h' => rw [equals]; exact ih _ h'
  | _, _, .map h, ho, hk =>
    have ih := meantE_one h ho.1 hk
    fun w h' => by
      cases h' with
      | map h' =>
        have q := ih _ h'
        refine maps_equal (WF_entries (meantE_WF hok hcl h ho.1 hk) ho.2) (WF_entries (meantE_WF hok hcl h' ho.1 hk) ho.2)
          (fun k _ => (q k).none_iff) (fun k x y _ hx hy => ?_)
        have := q k
        rw [hx, hy] at this
        exact this
theorem meantText_one : ∀ {ps : List DataPiece} {t : Str}, MeantText E sc ls ps t → (∀ x fs, DataPiece.key x fs ∈ ps → K x) →
    ∀ u, MeantText E sc ls ps u → t = u
  | _, _, .nil, _ => fun u h' => by cases h'; rfl
  | _, _, .text h, hk =>
    have ih := meantText_one h (fun x fs hx => hk x fs (List.mem_cons_of_mem _ hx))
    fun u h' => by cases h' with | text h' => rw [ih _ h']
  | _, _, .var h, hk =>
    have ih := meantText_one h (fun x fs hx => hk x fs (List.mem_cons_of_mem _ hx))
    fun u h' => by cases h' with | var h' => rw [ih _ h']
  | _, _, .key (x := x) (fs := fs) ha h, hk =>
    have hx : K x := hk x fs (by simp)
    have ih := meantText_one h (fun x fs hx => hk x fs (List.mem_cons_of_mem _ hx))
    have iha := answered_one ha hx
    fun u h' => by
      cases h' with
      | key ha' h' => rw [ih _ h', textIn_congr hE (answered_WF hok hcl ha hx) (answered_WF hok hcl ha' hx) fs (iha _ ha')]
theorem meantL_one : ∀ {ts : List Template} {vs : List Value}, MeantL E sc ls ts vs → OkL ts → (∀ x fs, DataPiece.key x fs ∈ usesL ts → K x) →
    ∀ ws, MeantL E sc ls ts ws → equalsList vs ws = true
  | _, _, .nil, _, _ => fun ws h' => by cases h'; rfl
  | _, _, .cons h hs, ho, hk =>
    have ih := meant_one h ho.1 (fun x fs hx => hk x fs (by simp [usesL, hx]))
    have ihs := meantL_one hs ho.2 (fun x fs hx => hk x fs (by simp [usesL, hx]))
    fun ws h' => by cases h' with | cons h' hs' => rw [equalsList, ih _ h', ihs _ hs']; rfl
theorem meantE_one : ∀ {es : List (Str × Template)} {vs : Entries}, MeantE E sc ls es vs → OkE es →
    (∀ x fs, DataPiece.key x fs ∈ usesE es → K x) → ∀ ws, MeantE E sc ls es ws → ∀ k, EqO (Entries.get vs k) (Entries.get ws k)
  | _, _, .nil, _, _ => fun ws h' k => by cases h'; trivial
  | _, _, .cons h hs, ho, hk =>
    have ih := meant_one h ho.2.1 (fun x fs hx => hk x fs (by simp [usesE, hx]))
    have ihs := meantE_one hs ho.2.2 (fun x fs hx => hk x fs (by simp [usesE, hx]))
    fun ws h' k => by
      cases h' with
      | cons h' hs' =>
        have q := ihs _ hs' k
        unfold Entries.get at q ⊢
        rw [List.find?_cons, List.find?_cons]
        cases equals k (.str _) with
        | true => exact ih _ h'
        | false => exact q
theorem answered_one : ∀ {key : Str} {opts : Entries} {v : Option Value}, Answered E sc ls key opts v → K key →
    ∀ w, Answered E sc ls key opts w → EqO v w
  | key, _, _, .merge h hm ht, hk =>
    have ho := okL_iff.2 (hok key hk)
    have hx : ∀ x fs, DataPiece.key x fs ∈ usesL (templatesOf ls key) → K x := fun x fs hx => usesL_of hx (fun t ht hx => hcl key hk t ht x fs hx)
    have ih := meantL_one h ho hx
    fun w h' => by
      cases h' with
      | merge h' hm' ht' =>
        cases mergedBy_one hm hm'
        exact textbook_congr (meantL_WF hok hcl h ho hx) (meantL_WF hok hcl h' ho hx) (ih _ h') ht ht'
end

end

/-- C97: if equal values are written in the same way, then there is one answer for a key, up to the order of the entries of hashes. -/
theorem C97_one {E : Env} {sc : Scope} {ls : List Sheet} {K : Str → Prop} {rank : Str → Nat} (hr : Referring E sc ls K rank)
    (hE : ∀ a b, WF a → WF b → equals a b = true → E.render a = E.render b) {key : Str} (hk : K key) {opts : Entries} {v w : Option Value}
    (h : Answered E sc ls key opts v) (h' : Answered E sc ls key opts w) :
    (v = none ∧ w = none) ∨ ∃ x y, v = some x ∧ w = some y ∧ equals x y = true := by
  have q := answered_one (fun k hk => (hr.legible k hk).written) (fun k hk t ht x fs hx => (hr.refs k hk t ht x fs hx).1) hE h hk w h'
  cases v with
  | none => exact .inl ⟨rfl, q.none_iff.1 rfl⟩
  | some v =>
    obtain ⟨y, rfl, e⟩ := q.some_left
    exact .inr ⟨v, y, rfl, rfl, e⟩

/-- In the set-up of the examples for C97, there is one answer. -/
example {v w : Option Value} (h : Answered Referring97.world Referring97.scope Referring97.sheets "app::settings".toList [] v)
    (h' : Answered Referring97.world Referring97.scope Referring97.sheets "app::settings".toList [] w) :
    (v = none ∧ w = none) ∨ ∃ x y, v = some x ∧ w = some y ∧ equals x y = true :=
  C97_one Referring97.referring (fun a b _ _ e => by
    show (if a = .int 8080 then "8080".toList else []) = (if b = .int 8080 then "8080".toList else [])
    cases a <;> cases b <;> simp_all [equals]) (by decide) h h'

end Hiera
