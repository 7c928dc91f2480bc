/- C113: data that is kept under a key of its own. -/
import Verif.Spec.Apart
import Verif.Props.RungsReferring
import Verif.Props.Termination

set_option autoImplicit false
set_option linter.unusedSectionVars false

namespace Hiera
open Value Spec World

section
variable {E : Env} {sc : Scope} {ans : Str → Option Value}

theorem getS_value (key : Str) : ∀ es : List (Str × Template),
    Entries.getS (valueE E sc ans es) key = ((es.find? (fun e => key = e.1)).map (·.2)).map (valueT E sc ans)
  | [] => rfl
  | (k, t) :: es => by
    have ih := getS_value key es
    unfold Entries.getS Entries.get at ih ⊢
    rw [valueE, List.find?_cons, List.find?_cons]
    by_cases h : key = k
    · simp [equals, h]
    · simp only [equals, h, decide_false]
      rw [show (key == k) = false from by simpa using h]
      exact ih

theorem value_field : ∀ (fs : List Str) {T t : Template}, T.field fs = some t → fieldOf fs (valueT E sc ans T) = some (valueT E sc ans t)
  | [], _, _, h => by cases h; rfl
  | f :: fs, .map es, t, h => by
    rw [Template.field] at h
    rw [valueT, fieldOf, getS_value]
    cases hf : (es.find? (fun e => f = e.1)).map (·.2) with
    | none => rw [hf] at h; cases h
    | some u => rw [hf] at h; exact value_field fs h
  | _ :: _, .plain _, _, h => by cases h
  | _ :: _, .text _, _, h => by cases h
  | _ :: _, .alias _ _, _, h => by cases h
  | _ :: _, .arr _, _, h => by cases h

theorem uses_found {f : Str} {t : Template} {p : DataPiece} (hp : p ∈ t.uses) : ∀ {es : List (Str × Template)},
    (es.find? (fun e => f = e.1)).map (·.2) = some t → p ∈ usesE es
  | [], h => by cases h
  | (k, u) :: es, h => by
    rw [usesE]
    rw [List.find?_cons] at h
    by_cases hk : f = k
    · rw [show decide (f = k) = true from by simpa using hk] at h
      cases h
      exact List.mem_append_left _ hp
    · rw [show decide (f = k) = false from by simpa using hk] at h
      exact List.mem_append_right _ (uses_found hp h)

theorem uses_field : ∀ (fs : List Str) {T t : Template} {p : DataPiece}, T.field fs = some t → p ∈ t.uses → p ∈ T.uses
  | [], _, _, _, h, hp => by cases h; exact hp
  | f :: fs, .map es, t, p, h, hp => by
    rw [Template.field] at h
    rw [Template.uses]
    cases hf : (es.find? (fun e => f = e.1)).map (·.2) with
    | none => rw [hf] at h; cases h
    | some u => rw [hf] at h; exact uses_found (uses_field fs h hp) hf
  | _ :: _, .plain _, _, _, h, _ => by cases h
  | _ :: _, .text _, _, _, h, _ => by cases h
  | _ :: _, .alias _ _, _, _, h, _ => by cases h
  | _ :: _, .arr _, _, _, h, _ => by cases h

theorem textValue_append (ps qs : List DataPiece) : textValue E sc ans (ps ++ qs) = textValue E sc ans ps ++ textValue E sc ans qs := by
  induction ps with
  | nil => rfl
  | cons p ps ih => cases p <;> simp [textValue, ih]

theorem textValue_congr {ans' : Str → Option Value} : ∀ ps : List DataPiece, (∀ x fs, DataPiece.key x fs ∈ ps → ans x = ans' x) →
    textValue E sc ans ps = textValue E sc ans' ps
  | [], _ => rfl
  | .text t :: ps, h => by rw [textValue, textValue, textValue_congr ps (fun x fs hx => h x fs (List.mem_cons_of_mem _ hx))]
  | .var x fs :: ps, h => by rw [textValue, textValue, textValue_congr ps (fun x fs hx => h x fs (List.mem_cons_of_mem _ hx))]
  | .key x fs :: ps, h => by
    rw [textValue, textValue, textValue_congr ps (fun x fs hx => h x fs (List.mem_cons_of_mem _ hx)), h x fs (List.mem_cons_self ..)]

mutual
theorem value_congr {ans' : Str → Option Value} : ∀ t : Template, (∀ x fs, DataPiece.key x fs ∈ t.uses → ans x = ans' x) →
    valueT E sc ans t = valueT E sc ans' t
  | .plain _, _ => rfl
  | .text ps, h => by rw [Template.uses] at h; rw [valueT, valueT, textValue_congr ps h]
  | .alias x fs, h => by rw [Template.uses] at h; rw [valueT, valueT, h x fs (List.mem_singleton.2 rfl)]
  | .arr ts, h => by rw [Template.uses] at h; rw [valueT, valueT, valueL_congr ts h]
  | .map es, h => by rw [Template.uses] at h; rw [valueT, valueT, valueE_congr es h]
theorem valueL_congr {ans' : Str → Option Value} : ∀ ts : List Template, (∀ x fs, DataPiece.key x fs ∈ usesL ts → ans x = ans' x) →
    valueL E sc ans ts = valueL E sc ans' ts
  | [], _ => rfl
  | t :: ts, h => by
    rw [usesL] at h
    rw [valueL, valueL, value_congr t (fun x fs hx => h x fs (List.mem_append_left _ hx)), valueL_congr ts (fun x fs hx => h x fs (List.mem_append_right _ hx))]
theorem valueE_congr {ans' : Str → Option Value} : ∀ es : List (Str × Template), (∀ x fs, DataPiece.key x fs ∈ usesE es → ans x = ans' x) →
    valueE E sc ans es = valueE E sc ans' es
  | [], _ => rfl
  | (k, t) :: es, h => by
    rw [usesE] at h
    rw [valueE, valueE, value_congr t (fun x fs hx => h x fs (List.mem_append_left _ hx)), valueE_congr es (fun x fs hx => h x fs (List.mem_append_right _ hx))]
end
end

theorem combine_first (v : Value) (vs : List Value) : refCombine .first (v :: vs) = some v := by
  have : ∀ (vs : List Value) (v : Value), vs.foldl Strategy.first.merge v = v := by
    intro vs
    induction vs with
    | nil => intro v; rfl
    | cons w vs ih => intro v; exact ih v
  exact congrArg some (this vs v)

/-! Only the text of values depends on the environment. -/

section
variable {E E' : Env} (hren : E'.render = E.render) {sc : Scope} {ans : Str → Option Value}
include hren

theorem textIn_env (v : Option Value) : textIn E' v = textIn E v := by
  unfold textIn
  rw [hren]

theorem textValue_env : ∀ ps : List DataPiece, textValue E' sc ans ps = textValue E sc ans ps
  | [] => rfl
  | .text t :: ps => by rw [textValue, textValue, textValue_env ps]
  | .var x fs :: ps => by rw [textValue, textValue, textValue_env ps, textIn_env hren]
  | .key x fs :: ps => by rw [textValue, textValue, textValue_env ps, textIn_env hren]

mutual
theorem value_env : ∀ t : Template, valueT E' sc ans t = valueT E sc ans t
  | .plain _ => rfl
  | .text ps => by rw [valueT, valueT, textValue_env hren ps]
  | .alias x fs => by rw [valueT, valueT]
  | .arr ts => by rw [valueT, valueT, valueL_env ts]
  | .map es => by rw [valueT, valueT, valueE_env es]
theorem valueL_env : ∀ ts : List Template, valueL E' sc ans ts = valueL E sc ans ts
  | [] => rfl
  | t :: ts => by rw [valueL, valueL, value_env t, valueL_env ts]
theorem valueE_env : ∀ es : List (Str × Template), valueE E' sc ans es = valueE E sc ans es
  | [] => rfl
  | (k, t) :: es => by rw [valueE, valueE, value_env t, valueE_env es]
end
end

section
variable {E : Env} {sc : Scope} {ls : List Sheet} {ans ans' : Str → Option Value} {D : Str → Prop}
  (hd : ∀ x, D x → ∀ t ∈ templatesOf ls x, ∀ y gs, DataPiece.key y gs ∈ t.uses → D y)
  (hv : ∀ x, D x → ∀ fs t, HoldsAt ls x fs t → (ans' x).bind (fieldOf fs) = some (valueT E sc ans' t))
include hd hv

omit hv in
theorem holds_uses {x : Str} {fs : List Str} {t : Template} (hx : D x) (h : HoldsAt ls x fs t) : ∀ y gs, DataPiece.key y gs ∈ t.uses → D y := by
  obtain ⟨_, T, rest, h1, h2⟩ := h
  exact fun y gs hy => hd x hx T (h1 ▸ List.mem_cons_self ..) y gs (uses_field fs h2 hy)

theorem apartText_value {ps ps' : List DataPiece} (h : ApartText E sc ls ps ps') : (∀ x fs, DataPiece.key x fs ∈ ps' → D x) →
    (∀ x fs, DataPiece.key x fs ∈ ps → ans x = ans' x) → textValue E sc ans' ps' = textValue E sc ans ps := by
  induction h with
  | nil => intro _ _; rfl
  | @same p ps ps' _ ih =>
    intro h1 h2
    have := ih (fun x fs hx => h1 x fs (List.mem_cons_of_mem _ hx)) (fun x fs hx => h2 x fs (List.mem_cons_of_mem _ hx))
    cases p with
    | text t => rw [textValue, textValue, this]
    | var x fs => rw [textValue, textValue, this]
    | key x fs => rw [textValue, textValue, this, h2 x fs (List.mem_cons_self ..)]
  | @cut os t u ps ps' _ ih =>
    intro h1 h2
    have := ih h1 (fun x fs hx => h2 x fs (by
      simp only [List.mem_append, List.mem_cons, reduceCtorEq, false_or] at hx ⊢
      exact hx))
    simp only [this, textValue_append, textValue, List.append_assoc]
  | @join ps os t u ps' _ ih =>
    intro h1 h2
    have := ih (fun x fs hx => h1 x fs (by
      simp only [List.mem_append, List.mem_cons, reduceCtorEq, false_or] at hx ⊢
      exact hx)) h2
    simp only [← this, textValue_append, textValue, List.append_assoc]
  | @apart qs qs' x fs ps ps' _ hh _ ih1 ih2 =>
    intro h1 h2
    have hx := h1 x fs (List.mem_cons_self ..)
    have e1 := ih1 (fun y gs hy => holds_uses hd hx hh y gs (by rw [Template.uses]; exact hy)) (fun y gs hy => h2 y gs (List.mem_append_left _ hy))
    have e2 := ih2 (fun y gs hy => h1 y gs (List.mem_cons_of_mem _ hy)) (fun y gs hy => h2 y gs (List.mem_append_right _ hy))
    rw [textValue, e2, hv x hx fs _ hh, valueT, textValue_append, ← e1]
    rfl
  | @out x fs ps ps' _ ih =>
    intro h1 h2
    rw [textValue, textValue, ih (fun x fs hx => h1 x fs (List.mem_cons_of_mem _ hx)) (fun x fs hx => h2 x fs (List.mem_cons_of_mem _ hx))]

mutual
theorem apart_value : ∀ {t t' : Template}, Apart E sc ls t t' → (∀ x fs, DataPiece.key x fs ∈ t'.uses → D x) →
    (∀ x fs, DataPiece.key x fs ∈ t.uses → ans x = ans' x) → valueT E sc ans' t' = valueT E sc ans t
  | t, _, .same, _, h2 => (value_congr t h2).symm
  | .text _, .text _, .text h, h1, h2 => by
    rw [Template.uses] at h1 h2
    rw [valueT, valueT, apartText_value hd hv h h1 h2]
  | .arr _, .arr _, .arr h, h1, h2 => by
    rw [Template.uses] at h1 h2
    rw [valueT, valueT, apartL_value h h1 h2]
  | .map _, .map _, .map h, h1, h2 => by
    rw [Template.uses] at h1 h2
    rw [valueT, valueT, apartE_value h h1 h2]
  | _, .alias x fs, .apart h hh, h1, h2 => by
    have hx := h1 x fs (by rw [Template.uses]; exact List.mem_singleton.2 rfl)
    rw [valueT, hv x hx fs _ hh]
    exact apart_value h (holds_uses hd hx hh) h2
theorem apartL_value : ∀ {ts ts' : List Template}, ApartL E sc ls ts ts' → (∀ x fs, DataPiece.key x fs ∈ usesL ts' → D x) →
    (∀ x fs, DataPiece.key x fs ∈ usesL ts → ans x = ans' x) → valueL E sc ans' ts' = valueL E sc ans ts
  | [], [], .nil, _, _ => rfl
  | _ :: _, _ :: _, .cons h hs, h1, h2 => by
    rw [usesL] at h1 h2
    rw [valueL, valueL, apart_value h (fun x fs hx => h1 x fs (List.mem_append_left _ hx)) (fun x fs hx => h2 x fs (List.mem_append_left _ hx)),
      apartL_value hs (fun x fs hx => h1 x fs (List.mem_append_right _ hx)) (fun x fs hx => h2 x fs (List.mem_append_right _ hx))]
theorem apartE_value : ∀ {es es' : List (Str × Template)}, ApartE E sc ls es es' → (∀ x fs, DataPiece.key x fs ∈ usesE es' → D x) →
    (∀ x fs, DataPiece.key x fs ∈ usesE es → ans x = ans' x) → valueE E sc ans' es' = valueE E sc ans es
  | [], [], .nil, _, _ => rfl
  | _ :: _, _ :: _, .cons h hs, h1, h2 => by
    rw [usesE] at h1 h2
    rw [valueE, valueE, apart_value h (fun x fs hx => h1 x fs (List.mem_append_left _ hx)) (fun x fs hx => h2 x fs (List.mem_append_left _ hx)),
      apartE_value hs (fun x fs hx => h1 x fs (List.mem_append_right _ hx)) (fun x fs hx => h2 x fs (List.mem_append_right _ hx))]
end
end

theorem uses_mem {t : Template} {p : DataPiece} (hp : p ∈ t.uses) : ∀ {ts : List Template}, t ∈ ts → p ∈ usesL ts
  | _ :: ts, h => by
    rw [usesL]
    rcases List.mem_cons.1 h with rfl | h
    · exact List.mem_append_left _ hp
    · exact List.mem_append_right _ (uses_mem hp h)

theorem mem_uses {p : DataPiece} : ∀ {ts : List Template}, p ∈ usesL ts → ∃ t ∈ ts, p ∈ t.uses
  | t :: ts, h => by
    rw [usesL] at h
    rcases List.mem_append.1 h with h | h
    · exact ⟨t, List.mem_cons_self .., h⟩
    · obtain ⟨u, h1, h2⟩ := mem_uses h
      exact ⟨u, List.mem_cons_of_mem _ h1, h2⟩
  | [], h => by cases h

namespace Spec

/-- A set-up with levels of one file, as in C97, or with levels of every kind, as in C120. -/
inductive Layout
  | levels
  | rungs (rs : List Rung)

def Layout.Has : Layout → Env → Scope → List Sheet → (Str → Prop) → (Str → Nat) → Prop
  | .levels => Referring
  | .rungs rs => fun E sc => ReferringIn E sc rs

def Layout.Mergeable : Layout → Str → List Value → Prop
  | .levels => Spec.Mergeable
  | .rungs _ => MergeableAny

/-- The keys that are referred to can be merged. -/
def Referred (L : Layout) (E : Env) (sc : Scope) (ls : List Sheet) (K : Str → Prop) (key : Str) : Prop :=
  K key ∧ ∀ vs st, MeantL E sc ls (templatesOf ls key) vs → MergedBy (ls.map Sheet.level) key [] st → L.Mergeable st vs

/-- A lookup in such a set-up, from the command line or the server. -/
structure AskedOf (L : Layout) (E : Env) (sc : Scope) (ls : List Sheet) (K : Str → Prop) (rank : Str → Nat) (root : Str) (opts : Entries) (st : Str) : Prop where
  setup : L.Has E sc ls K rank
  top : E.top = .mux
  functions : E.muxFns = some [.config, .env]
  ordinary : ∀ k, K k → NotEnv k
  key : K root
  merged : MergedBy (ls.map Sheet.level) root opts st
  mergeable : ∀ vs, MeantL E sc ls (templatesOf ls root) vs → L.Mergeable st vs

/-- The data of a key is the same but for parts that are kept elsewhere, and is merged in the same way. -/
structure KeptApart (L L' : Layout) (E : Env) (sc : Scope) (ls : List Sheet) (K : Str → Prop) (E' : Env) (ls' : List Sheet) (K' : Str → Prop) (k : Str) : Prop where
  key : K' k
  merged : ∀ st, MergedBy (ls.map Sheet.level) k [] st → MergedBy (ls'.map Sheet.level) k [] st
  mergeable : Referred L E sc ls K k → Referred L' E' sc ls' K' k
  data : ApartL E sc ls' (templatesOf ls k) (templatesOf ls' k)

end Spec

theorem gives_same {E : Env} {s : St} {k : Key} {o : Entries} {a b : Res (Option Value)} (h : Gives E s k o a) (h' : Gives E s k o b) : a = b := by
  obtain ⟨n, t, h⟩ := h
  obtain ⟨m, u, h'⟩ := h'
  exact congrArg Prod.fst (C59_deterministic E n m k o s _ _ h h')

theorem layout_sheeted {L : Layout} {E : Env} {sc : Scope} {ls : List Sheet} {K : Str → Prop} {rank : Str → Nat} (h : L.Has E sc ls K rank) :
    ∃ si, Sheeted L.Mergeable E sc ls K rank si := by
  cases L with
  | levels => exact ⟨_, referring_sheeted h⟩
  | rungs rs => exact ⟨_, rungs_sheeted h⟩

/-- Two set-ups have the same answers for keys, which may have other names in the second, if their data has the same values whenever
the keys that it refers to have the same answers. -/
theorem alike_answers {E E' : Env} (he : StatelessEnv E) (he' : StatelessEnv E') {s s' : St} (hs : Session E s) (hs' : Session E' s')
    (hl : s.v.locked = []) (hl' : s'.v.locked = []) {L L' : Layout} {sc sc' : Scope} {ls ls' : List Sheet} {K K' : Str → Prop} {rank rank' : Str → Nat} {f : Str → Str}
    {root st : Str} {opts : Entries} (hq : AskedOf L E sc ls K rank root opts st) (hq' : AskedOf L' E' sc' ls' K' rank' (f root) opts st)
    (hb : ∀ k, K k → ∀ st, MergedBy (ls.map Sheet.level) k [] st → MergedBy (ls'.map Sheet.level) (f k) [] st)
    (hm : ∀ k, K k → Referred L E sc ls K k → Referred L' E' sc' ls' K' (f k))
    (same : ∀ ans ans' : Str → Option Value,
      (∀ x, Referred L' E' sc' ls' K' x → ∀ st, MergedBy (ls'.map Sheet.level) x [] st → ∃ stv, getStrategy st none = .ok stv ∧
        ans' x = refCombine stv (valueL E' sc' ans' (templatesOf ls' x))) →
      ∀ k, K k → (∀ t ∈ templatesOf ls k, ∀ x fs, DataPiece.key x fs ∈ t.uses → ans x = ans' (f x)) →
        valueL E' sc' ans' (templatesOf ls' (f k)) = valueL E sc ans (templatesOf ls k))
    (src src' : Str) (fs : List Str) (ex ex' : Option ExplOpts) (r : Res (Option Value)) :
    Gives E' (nextInvocation s' sc' ex') ⟨src', .name (f root) :: fs.map .name⟩ opts r ↔
    Gives E (nextInvocation s sc ex) ⟨src, .name root :: fs.map .name⟩ opts r := by
  obtain ⟨si, hr⟩ := layout_sheeted hq.setup
  obtain ⟨si', hr'⟩ := layout_sheeted hq'.setup
  obtain ⟨ans, hans⟩ := sheets_refs hr hq.top hq.functions hq.ordinary
  obtain ⟨ans', hans'⟩ := sheets_refs hr' hq'.top hq'.functions hq'.ordinary
  have same := same ans ans' (fun x hx => (hans' x hx).2)
  have equal : ∀ n k, rank k < n → Referred L E sc ls K k → ans k = ans' (f k) := by
    intro n
    induction n with
    | zero => intro k h; exact absurd h (Nat.not_lt_zero _)
    | succ n ih =>
      intro k hn hK
      obtain ⟨st, hst⟩ := mergedBy_exists (hr.legible k hK.1).options
      obtain ⟨stv, g1, g2⟩ := (hans k hK).2 st hst
      obtain ⟨stv', g1', g2'⟩ := (hans' (f k) (hm k hK.1 hK)).2 st (hb k hK.1 st hst)
      rw [g1] at g1'
      cases g1'
      rw [g2, g2', same k hK.1]
      intro t ht x fs hx
      obtain ⟨b1, b2, b3⟩ := hr.refs k hK.1 t ht x fs hx
      exact ih x (by omega) ⟨b1, b3⟩
  obtain ⟨stv, v, g1, g2, _, g3⟩ := sheets_value hr he hs hl hq.top hq.functions hq.ordinary (fun k h => (hans k h).1) hq.key hq.merged hq.mergeable src fs ex
  obtain ⟨stv', v', g1', g2', _, g3'⟩ := sheets_value hr' he' hs' hl' hq'.top hq'.functions hq'.ordinary (fun k h => (hans' k h).1) hq'.key hq'.merged hq'.mergeable src' fs ex'
  rw [g1] at g1'
  cases g1'
  have e : v' = v := by
    rw [g2, g2', same root hq.key]
    intro t ht x fs hx
    obtain ⟨b1, b2, b3⟩ := hr.refs root hq.key t ht x fs hx
    exact equal _ x (Nat.lt_succ_self _) ⟨b1, b3⟩
  subst e
  exact ⟨fun h => by rw [gives_same h g3']; exact g3, fun h => by rw [gives_same h g3]; exact g3'⟩

/-- C113: parts of the data may be kept under keys of their own, on whatever level, and referred to from where they were, and variables
may be written out: lookups of the keys give the same as before. -/
theorem C113_apart {E E' : Env} (he : StatelessEnv E) (he' : StatelessEnv E') (hren : E'.render = E.render) {s s' : St} (hs : Session E s) (hs' : Session E' s')
    (hl : s.v.locked = []) (hl' : s'.v.locked = []) {L L' : Layout} {sc : Scope} {ls ls' : List Sheet} {K K' : Str → Prop} {rank rank' : Str → Nat} {root st : Str} {opts : Entries}
    (hq : AskedOf L E sc ls K rank root opts st) (hq' : AskedOf L' E' sc ls' K' rank' root opts st)
    (hk : ∀ k, K k → KeptApart L L' E sc ls K E' ls' K' k)
    (src : Str) (fs : List Str) (ex ex' : Option ExplOpts) (r : Res (Option Value)) :
    Gives E' (nextInvocation s' sc ex') ⟨src, .name root :: fs.map .name⟩ opts r ↔ Gives E (nextInvocation s sc ex) ⟨src, .name root :: fs.map .name⟩ opts r := by
  obtain ⟨si', hr'⟩ := layout_sheeted hq'.setup
  have hd : ∀ x, Referred L' E' sc ls' K' x → ∀ t ∈ templatesOf ls' x, ∀ y gs, DataPiece.key y gs ∈ t.uses → Referred L' E' sc ls' K' y := by
    intro x hx t ht y gs hy
    obtain ⟨h1, _, h2⟩ := hr'.refs x hx.1 t ht y gs hy
    exact ⟨h1, h2⟩
  refine alike_answers he he' hs hs' hl hl' (f := id) hq hq' (fun k h => (hk k h).merged) (fun k h => (hk k h).mergeable)
    (fun ans ans' hans' k hK ha => ?_) src src fs ex ex' r
  have hv : ∀ x, Referred L' E' sc ls' K' x → ∀ fs t, HoldsAt ls' x fs t → (ans' x).bind (fieldOf fs) = some (valueT E sc ans' t) := by
    rintro x hx fs t ⟨hm, T, rest, h1, h2⟩
    obtain ⟨stv, g1, g2⟩ := hans' x hx _ hm
    have : stv = .first := by
      have e : getStrategy "first".toList none = .ok .first := rfl
      rw [e] at g1
      cases g1; rfl
    subst this
    rw [g2, h1, valueL, combine_first, Option.bind_some, value_field fs h2, value_env hren]
  rw [valueL_env hren]
  refine apartL_value hd hv (hk k hK).data (fun x fs hx => ?_) (fun x fs hx => ?_)
  · obtain ⟨t, h1, h2⟩ := mem_uses hx
    obtain ⟨g1, _, g2⟩ := hr'.refs k (hk k hK).key t h1 x fs h2
    exact ⟨g1, g2⟩
  · obtain ⟨t, h1, h2⟩ := mem_uses hx
    exact ha t h1 x fs h2

namespace Apart113

open Referring97

/-- The data of `Referring97`, with the address of the host written out in both places. -/
def outData : List (Str × Template) := [
  ("lookup_options".toList, .map [("app::settings".toList, .map [("merge".toList, .text [.text "deep".toList])])]),
  ("app::port".toList, .plain (.int 80)),
  ("app::url".toList, .text [.text "http://".toList, .var "node".toList ["name".toList], .text ".example.com:".toList, .key "app::port".toList []]),
  ("app::settings".toList, .map [("url".toList, .text [.text "http://".toList, .var "node".toList ["name".toList], .text ".example.com:".toList, .key "app::port".toList []]),
    ("names".toList, .arr [.text [.text "www".toList]])])]

def outSheets : List Sheet := [
  ⟨"nodes".toList, [.text "nodes/".toList, .var "node".toList ["name".toList], .text ".yaml".toList], some nodeData⟩,
  ⟨"common".toList, [.text "common.yaml".toList], some outData⟩]

def outWorld : Env :=
  { mk (configOf (outSheets.map Sheet.level)) [("/h/data/nodes/web.yaml".toList, .map (writtenE nodeData)), ("/h/data/common.yaml".toList, .map (writtenE outData))] with
    top := .mux, muxFns := some [.config, .env], render := fun v => if v = .int 8080 then "8080".toList else [] }

def outKeys : List Str := ["app::port".toList, "app::url".toList, "app::settings".toList]

theorem outKeys_keys {k : Str} (h : k ∈ outKeys) : k ∈ keys := List.mem_cons_of_mem _ h

theorem outStateless : StatelessEnv outWorld := by
  refine ⟨.inr ⟨rfl, [.env], rfl, by simp⟩, fun fs f h hf => ?_, (fun _ _ h => nomatch h), (fun _ _ _ h => nomatch h)⟩
  cases h
  rcases List.mem_cons.1 hf with h | h
  · subst h; trivial
  · rw [List.mem_singleton.1 h]; trivial

theorem outOrdinary : Ordinary outWorld scope (outSheets.map Sheet.level) where
  config := rfl
  named := by decide
  distinct := by decide
  paths := by
    intro l hl
    simp only [outSheets, List.map_cons, List.map_nil, List.mem_cons, List.not_mem_nil, or_false] at hl
    rcases hl with rfl | rfl
    · refine ⟨by decide, fun p hp => ?_⟩
      simp only [Sheet.level, List.mem_cons, List.not_mem_nil, or_false] at hp
      rcases hp with rfl | rfl | rfl
      · show '%' ∉ _; decide
      · exact ⟨⟨by decide, by decide⟩, fun f hf => by cases List.mem_singleton.1 hf; exact ⟨by decide, by decide⟩⟩
      · show '%' ∉ _; decide
    · refine ⟨by decide, fun p hp => ?_⟩
      cases List.mem_singleton.1 hp
      show '%' ∉ _; decide
  vars := by
    intro l _ x fs _ v hv
    have : ∀ e ∈ ([(s "node", .map [(s "name", s "web")])] : Entries), marked e.2 = false := by decide
    rw [scope_get] at hv
    obtain ⟨e, he, _, rfl⟩ := Entries.get_mem hv
    exact unmarked_of_marked (this e he)
  dataDir := fun h => by have := (hasMarker_iff _).2 h; revert this; decide
  pluginDir := fun h => by have := (hasMarker_iff _).2 h; revert this; decide
  there := by
    intro l hl es he
    simp only [outSheets, List.map_cons, List.map_nil, List.mem_cons, List.not_mem_nil, or_false] at hl
    rcases hl with rfl | rfl
    · cases he
      have hf : Level.file outWorld scope (Sheet.level ⟨"nodes".toList, [.text "nodes/".toList, .var "node".toList ["name".toList], .text ".yaml".toList],
        some nodeData⟩) = "/h/data/nodes/web.yaml".toList := by decide +kernel
      rw [hf]
      refine ⟨by decide +kernel, by rfl, ?_⟩
      simp [Value.WF, WFEntries, WFList, nodeData, writtenE, writtenL, Template.written]
    · cases he
      have hf : Level.file outWorld scope (Sheet.level ⟨"common".toList, [.text "common.yaml".toList], some outData⟩) =
        "/h/data/common.yaml".toList := by decide +kernel
      rw [hf]
      refine ⟨by decide +kernel, by rfl, ?_⟩
      simp [Value.WF, WFEntries, WFList, outData, writtenE, writtenL, Template.written]
  absent := by
    have : ∀ l ∈ outSheets.map Sheet.level, l.data.isNone = true → outWorld.stat (l.file outWorld scope) = false := by decide +kernel
    exact fun l hl h => this l hl (by rw [h]; rfl)

theorem outOptions : valuesOf (outSheets.map Sheet.level) "lookup_options".toList = valuesOf (sheets.map Sheet.level) "lookup_options".toList := by
  decide +kernel

theorem outPort : templatesOf outSheets "app::port".toList = [.plain (.int 8080), .plain (.int 80)] := rfl
theorem outUrl : templatesOf outSheets "app::url".toList =
    [.text [.text "http://".toList, .var "node".toList ["name".toList], .text ".example.com:".toList, .key "app::port".toList []]] := rfl
theorem outSettings : templatesOf outSheets "app::settings".toList =
    [.map [("names".toList, .arr [.text [.var "node".toList ["name".toList]]]), ("debug".toList, .plain (.bool true))],
      .map [("url".toList, .text [.text "http://".toList, .var "node".toList ["name".toList], .text ".example.com:".toList, .key "app::port".toList []]),
        ("names".toList, .arr [.text [.text "www".toList]])]] := rfl

theorem outWritten {k : Str} (hk : k ∈ outKeys) : ∀ t ∈ templatesOf outSheets k, t.Ok := by
  simp only [outKeys, List.mem_cons, List.not_mem_nil, or_false] at hk
  rcases hk with rfl | rfl | rfl
  · rw [outPort]
    simp only [List.mem_cons, List.not_mem_nil, or_false, forall_eq, Template.Ok, forall_eq_or_imp]
    exact ⟨⟨(fun _ h => nomatch h), trivial⟩, (fun _ h => nomatch h), trivial⟩
  · rw [outUrl]
    simp only [List.mem_cons, List.not_mem_nil, or_false, forall_eq, Template.Ok, forall_eq_or_imp]
    exact ⟨by show '%' ∉ _; decide, name_ok, by show '%' ∉ _; decide, key_ok (by decide)⟩
  · rw [outSettings]
    simp only [List.mem_cons, List.not_mem_nil, or_false, forall_eq, Template.Ok, forall_eq_or_imp, OkE, OkL, and_true]
    exact ⟨⟨⟨by decide, name_ok, by decide, (fun _ h => nomatch h), trivial⟩, by decide⟩,
      ⟨by decide, ⟨by show '%' ∉ _; decide, name_ok, by show '%' ∉ _; decide, key_ok (by decide)⟩, by decide, by show '%' ∉ _; decide⟩, by decide⟩

theorem outMerged {k st : Str} {o : Entries} : MergedBy (outSheets.map Sheet.level) k o st ↔ MergedBy (sheets.map Sheet.level) k o st := by
  constructor
  · rintro (h | ⟨h, g⟩ | ⟨h, g⟩)
    · exact .asked h
    · exact .said h (outOptions ▸ g)
    · exact .default h (outOptions ▸ g)
  · rintro (h | ⟨h, g⟩ | ⟨h, g⟩)
    · exact .asked h
    · exact .said h (outOptions.symm ▸ g)
    · exact .default h (outOptions.symm ▸ g)

theorem outReferring : Referring outWorld scope outSheets (· ∈ outKeys) rank where
  setup := outOrdinary
  rendered := referring.rendered
  options := by rw [outOptions]; exact referring.options
  legible := fun k hk => ⟨(part (outKeys_keys hk)).1, (legible (outKeys_keys hk)).ordinary, outWritten hk, fun _ _ _ _ _ _ h => vars h,
    by rw [outOptions]; exact (legible (outKeys_keys hk)).options⟩
  refs := by
    intro k hk t ht x fs hx
    simp only [outKeys, List.mem_cons, List.not_mem_nil, or_false] at hk
    rcases hk with rfl | rfl | rfl
    · rw [outPort] at ht
      simp only [List.mem_cons, List.not_mem_nil, or_false] at ht
      rcases ht with rfl | rfl <;> cases hx
    · rw [outUrl] at ht
      cases List.mem_singleton.1 ht
      simp only [Template.uses, List.mem_cons, List.not_mem_nil, or_false, reduceCtorEq, false_or, DataPiece.key.injEq] at hx
      obtain ⟨rfl, rfl⟩ := hx
      exact ⟨by decide, by decide, fun vs st _ h => first (.inr (.inl rfl)) vs st (outMerged.1 h)⟩
    · rw [outSettings] at ht
      simp only [List.mem_cons, List.not_mem_nil, or_false] at ht
      rcases ht with rfl | rfl
      · simp [Template.uses, usesE, usesL] at hx
      · simp only [Template.uses, usesE, usesL, List.append_nil, List.mem_append, List.mem_cons, List.not_mem_nil, or_false, reduceCtorEq,
          DataPiece.key.injEq, false_or] at hx
        obtain ⟨rfl, rfl⟩ := hx
        exact ⟨by decide, by decide, fun vs st _ h => first (.inr (.inl rfl)) vs st (outMerged.1 h)⟩

/-- Levels that have the data and the lookup options of the examples for C97. -/
structure Like (ls : List Sheet) : Prop where
  data : ∀ k, templatesOf ls k = templatesOf sheets k
  options : valuesOf (ls.map Sheet.level) "lookup_options".toList = valuesOf (sheets.map Sheet.level) "lookup_options".toList

section
variable {ls : List Sheet} (like : Like ls)
include like

theorem byFirst {x : Str} (hx : x = "app::host".toList ∨ x = "app::port".toList ∨ x = "app::url".toList) :
    MergedBy (ls.map Sheet.level) x [] "first".toList :=
  .default rfl (by rw [like.options]; rcases hx with rfl | rfl | rfl <;> decide +kernel)

theorem hostAt : HoldsAt ls "app::host".toList [] (.text [.var "node".toList ["name".toList], .text ".example.com".toList]) :=
  ⟨byFirst like (.inl rfl), _, _, (like.data _).trans host, rfl⟩

theorem urlAt : HoldsAt ls "app::url".toList []
    (.text [.text "http://".toList, .key "app::host".toList [], .text ":".toList, .key "app::port".toList []]) :=
  ⟨byFirst like (.inr (.inr rfl)), _, _, (like.data _).trans url, rfl⟩

theorem urlApart : ApartText outWorld scope ls
    [.text "http://".toList, .var "node".toList ["name".toList], .text ".example.com:".toList, .key "app::port".toList []]
    [.text "http://".toList, .key "app::host".toList [], .text ":".toList, .key "app::port".toList []] :=
  .cut (os := [.text "http://".toList, .var "node".toList ["name".toList]]) (t := ".example.com".toList) (u := ":".toList)
    (.same (.apart (qs := [.var "node".toList ["name".toList], .text ".example.com".toList]) (.same (.same .nil)) (hostAt like) (.same (.same .nil))))

theorem dataApart {k : Str} (hk : k ∈ outKeys) : ApartL outWorld scope ls (templatesOf outSheets k) (templatesOf ls k) := by
  rw [like.data]
  simp only [outKeys, List.mem_cons, List.not_mem_nil, or_false] at hk
  rcases hk with rfl | rfl | rfl
  · rw [outPort, port]
    exact .cons .same (.cons .same .nil)
  · rw [outUrl, url]
    exact .cons (.text (urlApart like)) .nil
  · rw [outSettings, settings]
    exact .cons .same (.cons (.map (.cons (.apart (.text (urlApart like)) (urlAt like)) (.cons .same .nil))) .nil)

theorem likeMerged {x st : Str} : MergedBy (ls.map Sheet.level) x [] st ↔ MergedBy (sheets.map Sheet.level) x [] st := by
  constructor
  · intro h
    cases h with
    | asked h => exact .asked h
    | said h h' => exact .said h (by rw [← like.options]; exact h')
    | default h h' => exact .default h (by rw [← like.options]; exact h')
  · intro h
    cases h with
    | asked h => exact .asked h
    | said h h' => exact .said h (by rw [like.options]; exact h')
    | default h h' => exact .default h (by rw [like.options]; exact h')

end

theorem settingsDeep {st : Str} (h : MergedBy (sheets.map Sheet.level) "app::settings".toList [] st) : st = "deep".toList := by
  have e : (valuesOf (sheets.map Sheet.level) "lookup_options".toList).findSome? (mergeIn "app::settings".toList) = some (s "deep") := by decide +kernel
  cases h with
  | asked h => cases h
  | said _ h =>
    rw [e] at h
    cases h
    rfl
  | default _ h => rw [e] at h; cases h

theorem kept {k : Str} (hk : k ∈ outKeys) : KeptApart .levels .levels outWorld scope outSheets (· ∈ outKeys) world sheets (· ∈ keys) k where
  key := outKeys_keys hk
  merged := fun _ h => outMerged.1 h
  mergeable := by
    refine fun _ => ⟨outKeys_keys hk, fun vs st _ h => ?_⟩
    simp only [outKeys, List.mem_cons, List.not_mem_nil, or_false] at hk
    rcases hk with rfl | rfl | rfl
    · exact first (.inr (.inl rfl)) vs st h
    · exact first (.inr (.inr rfl)) vs st h
    · cases settingsDeep h
      exact ⟨by decide, fun h => absurd h (by decide), fun h => absurd h (by decide)⟩
  data := dataApart ⟨fun _ => rfl, rfl⟩ hk

/-- The same with the levels of the example for C120. -/
theorem keptIn {k : Str} (hk : k ∈ outKeys) :
    KeptApart .levels (.rungs Rungs120.rungs) outWorld scope outSheets (· ∈ outKeys) Rungs120.world Rungs120.sheets (· ∈ keys) k where
  key := outKeys_keys hk
  merged := fun _ h => (likeMerged ⟨Rungs120.templates_eq, Rungs120.options_eq⟩).2 (outMerged.1 h)
  mergeable := by
    refine fun _ => ⟨outKeys_keys hk, fun vs st hv h => ?_⟩
    simp only [outKeys, List.mem_cons, List.not_mem_nil, or_false] at hk
    rcases hk with rfl | rfl | rfl
    · exact Rungs120.first (.inr (.inl rfl)) vs st h
    · exact Rungs120.first (.inr (.inr rfl)) vs st h
    · cases settingsDeep (Rungs120.merged h)
      exact Rungs120.two hv
  data := dataApart ⟨Rungs120.templates_eq, Rungs120.options_eq⟩ hk

theorem notEnv {k : Str} (hk : k ∈ keys) : NotEnv k := by
  simp only [keys, List.mem_cons, List.not_mem_nil, or_false] at hk
  rcases hk with rfl | rfl | rfl | rfl <;> exact ⟨by decide, by decide⟩

theorem deep (vs : List Value) : Mergeable "deep".toList vs := ⟨by decide, fun h => absurd h (by decide), fun h => absurd h (by decide)⟩

/-- The settings are the same, whether or not the host and the address are kept under keys of their own. -/
example (src : Str) (fs : List Str) (ex ex' : Option ExplOpts) (r : Res (Option Value)) :
    Gives world (newInvocation scope ex') ⟨src, .name "app::settings".toList :: fs.map .name⟩ [] r ↔
    Gives outWorld (newInvocation scope ex) ⟨src, .name "app::settings".toList :: fs.map .name⟩ [] r :=
  C113_apart (L := .levels) (L' := .levels) (K := (· ∈ outKeys)) (K' := (· ∈ keys)) outStateless stateless rfl (.start scope none) (.start scope none) rfl rfl
    (rank := rank) (rank' := rank) (st := "deep".toList)
    ⟨outReferring, rfl, rfl, fun _ h => notEnv (outKeys_keys h), by decide, .said rfl (by decide +kernel), fun vs _ => deep vs⟩
    ⟨referring, rfl, rfl, fun _ h => notEnv h, by decide, .said rfl (by decide +kernel), fun vs _ => deep vs⟩
    (fun _ => kept) src fs ex ex' r

/-- Nor does it matter that they are kept in levels of other kinds. -/
example (src : Str) (fs : List Str) (ex ex' : Option ExplOpts) (r : Res (Option Value)) :
    Gives Rungs120.world (newInvocation scope ex') ⟨src, .name "app::settings".toList :: fs.map .name⟩ [] r ↔
    Gives outWorld (newInvocation scope ex) ⟨src, .name "app::settings".toList :: fs.map .name⟩ [] r :=
  C113_apart (L := .levels) (L' := .rungs Rungs120.rungs) (K := (· ∈ outKeys)) (K' := (· ∈ keys)) outStateless Rungs120.stateless rfl
    (.start scope none) (.start scope none) rfl rfl (rank := rank) (rank' := rank) (st := "deep".toList)
    ⟨outReferring, rfl, rfl, fun _ h => notEnv (outKeys_keys h), by decide, .said rfl (by decide +kernel), fun vs _ => deep vs⟩
    ⟨Rungs120.referring, rfl, rfl, fun _ h => notEnv h, by decide, .said rfl (by decide +kernel), fun _ h => Rungs120.two h⟩
    (fun _ => keptIn) src fs ex ex' r

/-- What is referred to must be the first thing that is found: the port of the common level is not that of the node. -/
example : HoldsAt sheets "app::port".toList [] (.plain (.int 8080)) ∧ ¬HoldsAt sheets "app::port".toList [] (.plain (.int 80)) := by
  refine ⟨⟨byFirst ⟨fun _ => rfl, rfl⟩ (.inr (.inl rfl)), _, _, port, rfl⟩, ?_⟩
  rintro ⟨_, T, rest, h1, h2⟩
  rw [port] at h1
  cases h1
  cases h2

end Apart113

end Hiera
