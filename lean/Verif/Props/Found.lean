/- C105: only the values that are found count. -/
import Verif.Spec.Found
import Verif.Props.Kept

set_option autoImplicit false

namespace Hiera
open Value Spec World

/-- An entry that has nothing at all of its places has nothing. -/
theorem refEntry_nothing {E : Env} {e : Entry} {r : Ref} {C : Ctx} {k : Key} {ls : List Loc} (hl : e.locations = some ls)
    (at_ : ∀ l ∈ ls, refAt E r C k e l = pure none) (st : Strategy) : refEntry E r C k st e = pure none := by
  have first : ∀ ls : List Loc, (∀ l ∈ ls, refAt E r C k e l = pure none) → refFirst (ls.map (refAt E r C k e)) = pure none := by
    intro ls
    induction ls with
    | nil => exact fun _ => rfl
    | cons l ls ih =>
      intro h
      rw [List.map_cons, h l (List.mem_cons_self ..)]
      exact ih (fun m hm => h m (List.mem_cons_of_mem _ hm))
  have found : ∀ ls : List Loc, (∀ l ∈ ls, refAt E r C k e l = pure none) → refFound (ls.map (refAt E r C k e)) = pure [] := by
    intro ls
    induction ls with
    | nil => exact fun _ => rfl
    | cons l ls ih =>
      intro h
      rw [List.map_cons, h l (List.mem_cons_self ..)]
      unfold refFound
      rw [ih (fun m hm => h m (List.mem_cons_of_mem _ hm))]
      rfl
  unfold refEntry
  rw [hl]
  rcases ls with _ | ⟨l, _ | ⟨l', ls⟩⟩
  · cases st <;> rfl
  · exact at_ l (List.mem_cons_self ..)
  · have f1 := first (l :: l' :: ls) at_
    have f2 := found (l :: l' :: ls) at_
    simp only [List.map_cons] at f1 f2 ⊢
    cases st <;> simp only [refMerge] <;> first | exact f1 | (rw [f2]; rfl)

/-- An entry without a function has nothing, wherever it looks. -/
theorem noFunction_entry {E : Env} {e : Entry} (h : NoFunction E e) (r : Ref) (C : Ctx) (k : Key) (st : Strategy) : refEntry E r C k st e = pure none := by
  obtain ⟨kind, n, h1, h2, h3⟩ := h
  have src : ∀ l : Option Loc, refSource E r C k e l = pure none := by
    intro l
    unfold refSource
    rw [h1]
    cases kind with
    | dataHash =>
      dsimp only
      unfold refHash
      rw [if_neg (fun h => h2 (.inl h)), if_neg (fun h => h2 (.inr h)), h3]
      rfl
    | dataDig => dsimp only; rw [h3]; rfl
    | lookupKey =>
      dsimp only
      rw [if_neg (fun h => h2 (.inl h)), if_neg (fun h => h2 (.inr h)), h3]
      rfl
  cases hl : e.locations with
  | none =>
    unfold refEntry
    rw [hl]
    exact src none
  | some ls =>
    refine refEntry_nothing hl (fun l _ => ?_) st
    unfold refAt
    split
    · exact src _
    · exact src _
    · rfl

theorem carries_entry {E : Env} {e : Entry} {d : Entries} (h : Carries E e d) (r : Ref) (C : Ctx) (k : Key) (st : Strategy) :
    refEntry E r C k st e = match Entries.getS d k.root with | some v => refInterp E r C true v | none => pure none := by
  have src : ∀ {n : Str} {l : Option Loc}, e.function = some (.dataHash, n) → refHash E e n (refOpts e l) = .ok d →
      refSource E r C k e l = match Entries.getS d k.root with | some v => refInterp E r C true v | none => pure none := by
    intro n l h1 h2
    unfold refSource
    rw [h1]
    dsimp only
    rw [h2]
    rfl
  unfold refEntry
  cases h with
  | nowhere h1 h2 h3 => rw [h2]; exact src h1 h3
  | @place _ l _ h1 h2 h3 h4 =>
    rw [h2]
    show refAt E r C k e l = _
    cases l with
    | path o q x => cases x with
      | true => exact src h1 h4
      | false => cases h3
    | uri o q => exact src h1 h4
    | _ => exact h3.elim
  | missing h1 h2 =>
    refine refEntry_nothing h1 (fun l hl => ?_) st
    have h2 := h2 l hl
    cases l with
    | path o q x => cases x with
      | true => exact absurd rfl h2
      | false => rfl
    | uri o q => exact absurd trivial h2
    | _ => rfl
  | nobody h1 => exact noFunction_entry h1 r C k st

theorem lacks_entry {E : Env} {e : Entry} {k : Key} (h : LacksAt E k.root e) (r : Ref) (C : Ctx) (st : Strategy) : refEntry E r C k st e = pure none := by
  obtain ⟨n, ls, h1, h2, h3⟩ := h
  have src : ∀ {l : Loc}, (∃ d, refHash E e n (refOpts e (some l)) = .ok d ∧ Entries.getS d k.root = none) → refSource E r C k e (some l) = pure none := by
    rintro l ⟨d, h4, h5⟩
    unfold refSource
    rw [h1]
    dsimp only
    rw [h4]
    show (match Entries.getS d k.root with | some v => refInterp E r C true v | none => pure none) = _
    rw [h5]
  refine refEntry_nothing h2 (fun l hl => ?_) st
  by_cases hr : IsRead l
  · cases l with
    | path o q x => cases x with
      | true => exact src (h3 _ hl hr)
      | false => cases hr
    | uri o q => exact src (h3 _ hl hr)
    | _ => exact hr.elim
  · exact refAt_nothing E r C k e hr

/-- What something that was found gives. -/
def refBit (E : Env) (r : Ref) (C : Ctx) (k : Key) (st : Strategy) : Bit → Ans (Option Value)
  | .value v => refInterp E r C true v
  | .level e => refEntry E r C k st e

theorem refMerge_bits {E : Env} (r : Ref) (C : Ctx) (k : Key) (st : Strategy) {es : List Entry} {bs : List Bit} (h : Bits E k.root es bs) :
    ∀ xs : List (Ans (Option Value)), 2 ≤ xs.length →
      refMerge st (xs ++ es.map (refEntry E r C k st)) = refMerge st (xs ++ bs.map (refBit E r C k st)) := by
  induction h with
  | nil => intro xs _; rfl
  | @found _ _ v _ _ h1 h2 _ ih =>
    intro xs hx
    have := ih (xs ++ [refInterp E r C true v]) (by simp; omega)
    rw [List.append_assoc, List.append_assoc] at this
    rw [List.map_cons, List.map_cons, carries_entry h1, h2]
    exact this
  | nothing h1 h2 _ ih =>
    intro xs hx
    rw [List.map_cons, carries_entry h1, h2, refMerge_silent st xs _ (by simp; omega)]
    exact ih xs hx
  | silent h1 _ ih =>
    intro xs hx
    rw [List.map_cons, lacks_entry h1, refMerge_silent st xs _ (by simp; omega)]
    exact ih xs hx
  | @other e _ _ _ ih =>
    intro xs hx
    have := ih (xs ++ [refEntry E r C k st e]) (by simp; omega)
    rw [List.append_assoc, List.append_assoc] at this
    exact this

section
variable {E : Env} {p : Str} {ry rj : Str → FileRes} {sc : Scope} {r r' : Ref} {C : Ctx}

theorem refBit_same (h : RefAlike AnyText Everything sc r r') (hC : C.scope = sc) (k : Key) (st : Strategy) {b b' : Bit}
    (hb : SameBit E (withFiles E p ry rj) b b') :
    Alike (CleanO (RefersIn AnyText Everything)) (refBit E r C k st b) (refBit (withFiles E p ry rj) r' C k st b') := by
  cases hb with
  | @value v w hv =>
    show Alike _ (refInterp E r C true v) (refInterp (withFiles E p ry rj) r' C true w)
    rw [refInterp_files E p ry rj r', ← refInterp_same E r' C hv]
    exact (refInterp_alike (shut_everything E sc) h hC true v (withinV_any v)).post (fun _ hw => (shut_everything E sc).inO hw)
  | level he => exact refEntry_same h hC k st he

theorem refMerge_found_same (h : RefAlike AnyText Everything sc r r') (hC : C.scope = sc) (k : Key) (st : Strategy) {es es' : List Entry}
    (hs : SameFound E (withFiles E p ry rj) es es') :
    Alike (CleanO (RefersIn AnyText Everything)) (refHierarchy E r C k st es) (refHierarchy (withFiles E p ry rj) r' C k st es') := by
  obtain ⟨bs, bs', h1, h2, h3⟩ := hs.found k.root
  have bits : List.Forall₂ (Alike (CleanO (RefersIn AnyText Everything))) (bs.map (refBit E r C k st)) (bs'.map (refBit (withFiles E p ry rj) r' C k st)) := by
    rw [List.forall₂_map_left_iff, List.forall₂_map_right_iff]
    exact h3.imp (fun _ _ hb => refBit_same h hC k st hb)
  unfold refHierarchy
  by_cases ho : es.length = 1
  · have ho' := hs.one.1 ho
    rw [List.length_eq_one_iff] at ho ho'
    obtain ⟨e, rfl⟩ := ho
    obtain ⟨e', rfl⟩ := ho'
    refine refMerge_alike st (.cons ?_ .nil)
    have one : ∀ {E : Env} {r : Ref} {e : Entry} {bs : List Bit}, Bits E k.root [e] bs →
        (bs = [] ∧ refEntry E r C k st e = pure none) ∨ ∃ b, bs = [b] ∧ refEntry E r C k st e = refBit E r C k st b := by
      intro E r e bs hb
      cases hb with
      | found h1 h2 h3 => cases h3; exact .inr ⟨_, rfl, by rw [carries_entry h1, h2]; rfl⟩
      | nothing h1 h2 h3 => cases h3; exact .inl ⟨rfl, by rw [carries_entry h1, h2]⟩
      | silent h1 h3 => cases h3; exact .inl ⟨rfl, lacks_entry h1 r C st⟩
      | other h3 => cases h3; exact .inr ⟨_, rfl, rfl⟩
    rcases one (r := r) h1 with ⟨rfl, h4⟩ | ⟨b, rfl, h4⟩
    · cases h3
      rcases one (r := r') h2 with ⟨_, h5⟩ | ⟨_, h5, _⟩
      · rw [h4, h5]; exact .pure cleanO_none
      · cases h5
    · cases h3 with
      | cons h6 h7 =>
        cases h7
        rcases one (r := r') h2 with ⟨h5, _⟩ | ⟨_, h5, h8⟩
        · cases h5
        · cases h5; rw [h4, h8]; exact refBit_same h hC k st h6
  · have ho' : es'.length ≠ 1 := fun h => ho (hs.one.2 h)
    rw [refMerge_pad st (xs := es.map _) (by simpa using ho), refMerge_pad st (xs := es'.map _) (by simpa using ho')]
    have a := refMerge_bits r C k st h1 [pure none, pure none] (Nat.le_refl 2)
    have b := refMerge_bits r' C k st h2 [pure none, pure none] (Nat.le_refl 2)
    simp only [List.cons_append, List.nil_append] at a b
    rw [a, b]
    exact refMerge_alike st (.cons (.pure cleanO_none) (.cons (.pure cleanO_none) bits))

end

theorem answers_found {E : Env} {sc : Scope} {p : Str} {ry rj : Str → FileRes} {c c' : Cfg}
    (hc : newCfg E.cfg E.configPath (E.readYaml E.configPath) = .ok c) (hc' : newCfg E.cfg p (ry p) = .ok c') {n₀ : Nat}
    (hh : ∀ n, n₀ ≤ n → (∃ e : Option Err, refLevels E (ref E none n) ⟨sc, .call⟩ c c.hierarchy = e.map .panic ∧
        refLevels E (ref E none n) ⟨sc, .call⟩ c' c'.hierarchy = e.map .panic) ∨
      ∃ es es', refLevels E (ref E none n) ⟨sc, .call⟩ c c.hierarchy = some (.ok es) ∧
        refLevels E (ref E none n) ⟨sc, .call⟩ c' c'.hierarchy = some (.ok es') ∧ SameFound E (withFiles E p ry rj) es es')
    (hd : ∀ n, refLevels E (ref E none n) ⟨sc, .call⟩ c c.defaultHierarchy = refLevels E (ref E none n) ⟨sc, .call⟩ c' c'.defaultHierarchy)
    (k : Key) (o : Entries) (r : Res (Option Value)) : Answer (withFiles E p ry rj) sc k o r ↔ Answer E sc k o r := by
  have key : ∀ n m, n₀ ≤ n → refAnswer (withFiles E p ry rj) sc k o n m = refAnswer E sc k o n m := by
    intro n m hn
    refine refAnswer_alike (shut_everything E sc) ?_ (hd n) hc hc' trivial o m
    refine (hh n hn).imp id ?_
    rintro ⟨es, es', h1, h2, h3⟩
    exact ⟨es, es', fun r r' C k st _ hr hC _ => refMerge_found_same hr hC k st h3, h1, h2⟩
  constructor
  · rintro ⟨n, m, h⟩
    have := refAnswer_mono (Nat.le_max_left n n₀) (Nat.le_refl m) _ h
    rw [key _ _ (Nat.le_max_right n n₀)] at this
    exact ⟨_, _, this⟩
  · rintro ⟨n, m, h⟩
    have := refAnswer_mono (Nat.le_max_left n n₀) (Nat.le_refl m) _ h
    rw [← key _ _ (Nat.le_max_right n n₀)] at this
    exact ⟨_, _, this⟩

/-- C105: lookups give the same if the hierarchies have the same values for every key, in the same order, on whatever levels. Levels that
have nothing for a key do not matter to it, nor does how many levels there are, as long as there is not exactly one. -/
theorem C105_found {E : Env} (he : StatelessEnv E) {sc : Scope} {p : Str} {ry rj : Str → FileRes} {c c' : Cfg}
    (hc : newCfg E.cfg E.configPath (E.readYaml E.configPath) = .ok c) (hc' : newCfg E.cfg p (ry p) = .ok c') {n : Nat} {es es' : List Entry}
    (hl : refLevels E (ref E none n) ⟨sc, .call⟩ c c.hierarchy = some (.ok es))
    (hl' : refLevels (withFiles E p ry rj) (ref (withFiles E p ry rj) none n) ⟨sc, .call⟩ c' c'.hierarchy = some (.ok es'))
    (hf : SameFound E (withFiles E p ry rj) es es')
    (hd : ∀ n, refLevels E (ref E none n) ⟨sc, .call⟩ c c.defaultHierarchy = refLevels (withFiles E p ry rj) (ref (withFiles E p ry rj) none n) ⟨sc, .call⟩ c' c'.defaultHierarchy)
    {s s' : St} (hs : Session E s) (hs' : Session (withFiles E p ry rj) s') (ex ex' : Option ExplOpts) (k : Key) (o : Entries) (r : Res (Option Value)) :
    Gives (withFiles E p ry rj) (nextInvocation s' sc ex') k o r ↔ Gives E (nextInvocation s sc ex) k o r := by
  rw [C81_session _ (statelessEnv_files he ..) ⟨c', hc'⟩ hs', C81_session _ he ⟨c, hc⟩ hs]
  simp only [ref_none_files E p ry rj, refLevels_files E p ry rj] at hd hl'
  exact answers_found hc hc' (n₀ := n) (fun m hm => .inr ⟨es, es', refLevels_le (ref_mono E none hm) ⟨sc, .call⟩ c c.hierarchy _ hl,
    refLevels_le (ref_mono E none hm) ⟨sc, .call⟩ c' c'.hierarchy _ hl', hf⟩) hd k o r

/-! ### Some levels instead of others -/

theorem bits_levels (E : Env) (q : Str) : ∀ es : List Entry, Bits E q es (es.map .level)
  | [] => .nil
  | _ :: es => .other (bits_levels E q es)

theorem bits_append {E : Env} {q : Str} {es fs : List Entry} {as bs : List Bit} (h : Bits E q es as) (h' : Bits E q fs bs) : Bits E q (es ++ fs) (as ++ bs) := by
  induction h with
  | nil => exact h'
  | found h1 h2 _ ih => exact .found h1 h2 ih
  | nothing h1 h2 _ ih => exact .nothing h1 h2 ih
  | silent h1 _ ih => exact .silent h1 ih
  | other _ ih => exact .other ih

theorem bits_carries {E : Env} {q : Str} {es : List Entry} {ds : List Entries} (h : List.Forall₂ (Carries E) es ds) :
    Bits E q es ((valuesFor ds q).map .value) := by
  induction h with
  | nil => exact .nil
  | @cons e d es ds h1 _ ih =>
    unfold valuesFor at ih ⊢
    rw [List.filterMap_cons]
    cases h2 : Entries.getS d q with
    | none => exact .nothing h1 h2 ih
    | some v => exact .found h1 h2 ih

theorem sameData_self : ∀ x : Res Entries, SameData x x
  | .panic _ => .failed
  | .ok h => .read (fun q => by
      cases Entries.getS h q with
      | none => exact .none
      | some v => exact .some (.same v))

theorem sameSources_refl (E : Env) (p : Str) (e : Entry) : SameSources E (withFiles E p E.readYaml E.readJson) e e := by
  by_cases h : ∃ n, e.function = some (.dataHash, n)
  · obtain ⟨n, hn⟩ := h
    cases hl : e.locations with
    | none => exact .nowhere hn hn hl hl (sameData_self _)
    | some ls =>
      refine .places hn hn hl hl Iff.rfl (samePlaces_same (fun l _ => ?_))
      by_cases hr : IsRead l
      · exact .read hr hr (sameData_self _)
      · exact .neither hr hr
  · exact .other (name := e.name) (fun n hn => h ⟨n, hn⟩)

theorem carries_files {E : Env} {p : Str} {e : Entry} {d : Entries} (h : Carries E e d) : Carries (withFiles E p E.readYaml E.readJson) e d := by
  cases h with
  | nowhere h1 h2 h3 => exact .nowhere h1 h2 h3
  | place h1 h2 h3 h4 => exact .place h1 h2 h3 h4
  | missing h1 h2 => exact .missing h1 h2
  | nobody h1 => exact .nobody h1

theorem levels_have {E : Env} {sc : Scope} {c : Cfg} {es : List Entry} {ds : List Entries} (h : List.Forall₂ (LevelHas E sc c) es ds) :
    ∃ n, ∀ m, n ≤ m → ∀ b, refResolve E (ref E none m) ⟨sc, .call⟩ none c.defaults = some (.ok b) →
      ∃ xs, refResolveAll E (ref E none m) ⟨sc, .call⟩ b es = some (.ok xs) ∧ List.Forall₂ (Carries E) xs ds := by
  induction h with
  | nil => exact ⟨0, fun _ _ _ _ => ⟨[], rfl, .nil⟩⟩
  | @cons e d es ds h1 _ ih =>
    obtain ⟨n, b, x, hb, hx, hc⟩ := h1
    obtain ⟨n', ih⟩ := ih
    refine ⟨max n n', fun m hm b' hb' => ?_⟩
    have hb1 := refResolve_le (ref_mono E none (Nat.le_trans (Nat.le_max_left n n') hm)) ⟨sc, .call⟩ none c.defaults _ hb
    rw [hb'] at hb1
    cases hb1
    have hx1 := refResolve_le (ref_mono E none (Nat.le_trans (Nat.le_max_left n n') hm)) ⟨sc, .call⟩ (some b) e _ hx
    obtain ⟨xs, h2, h3⟩ := ih m (Nat.le_trans (Nat.le_max_right n n') hm) b hb'
    refine ⟨x :: xs, ?_, .cons hc h3⟩
    rw [refResolveAll, hx1, h2]
    rfl

theorem refResolveAll_length {E : Env} {r : Ref} {C : Ctx} {d : Entry} : ∀ {es fs : List Entry}, refResolveAll E r C d es = some (.ok fs) → fs.length = es.length
  | [], fs, h => by cases h; rfl
  | a :: as, fs, h => by
    rw [refResolveAll] at h
    match h2 : refResolve E r C (some d) a, h with
    | some (.ok b), h =>
      match h3 : refResolveAll E r C d as, h with
      | some (.ok bs), h =>
        cases h
        simp [refResolveAll_length h3]

/-- C105 for some levels of a configuration that stand in the place of others: all lookups give the same if together they have the same
values, in the same order, for every key. -/
theorem C105_levels {E : Env} (he : StatelessEnv E) {sc : Scope} {p : Str} {c c' : Cfg}
    (hc : newCfg E.cfg E.configPath (E.readYaml E.configPath) = .ok c) (hc' : newCfg E.cfg p (E.readYaml p) = .ok c')
    (hd : c'.defaults = c.defaults) (hdh : c'.defaultHierarchy = c.defaultHierarchy) {pre post as as' : List Entry} {ds ds' : List Entries}
    (hh : c.hierarchy = pre ++ as ++ post) (hh' : c'.hierarchy = pre ++ as' ++ post) (h1 : c.hierarchy.length = 1 ↔ c'.hierarchy.length = 1)
    (ha : List.Forall₂ (LevelHas E sc c) as ds) (ha' : List.Forall₂ (LevelHas E sc c) as' ds') (hv : ∀ q, valuesFor ds q = valuesFor ds' q)
    {s s' : St} (hs : Session E s) (hs' : Session (withFiles E p E.readYaml E.readJson) s')
    (ex ex' : Option ExplOpts) (k : Key) (o : Entries) (r : Res (Option Value)) :
    Gives (withFiles E p E.readYaml E.readJson) (nextInvocation s' sc ex') k o r ↔ Gives E (nextInvocation s sc ex) k o r := by
  rw [C81_session _ (statelessEnv_files he ..) ⟨c', hc'⟩ hs', C81_session _ he ⟨c, hc⟩ hs]
  obtain ⟨n, ha⟩ := levels_have ha
  obtain ⟨n', ha'⟩ := levels_have ha'
  refine answers_found hc hc' (n₀ := max n n') (fun m hm => ?_) (fun m => by unfold refLevels; rw [hd, hdh]) k o r
  unfold refLevels
  rw [hd, hh, hh', List.append_assoc, List.append_assoc]
  match hb : refResolve E (ref E none m) ⟨sc, .call⟩ none c.defaults with
  | none => exact .inl ⟨none, rfl, rfl⟩
  | some (.panic er) => exact .inl ⟨some er, rfl, rfl⟩
  | some (.ok b) =>
    show (∃ e : Option Err, refResolveAll E (ref E none m) ⟨sc, .call⟩ b (pre ++ (as ++ post)) = e.map .panic ∧
        refResolveAll E (ref E none m) ⟨sc, .call⟩ b (pre ++ (as' ++ post)) = e.map .panic) ∨
      ∃ es es', refResolveAll E (ref E none m) ⟨sc, .call⟩ b (pre ++ (as ++ post)) = some (.ok es) ∧
        refResolveAll E (ref E none m) ⟨sc, .call⟩ b (pre ++ (as' ++ post)) = some (.ok es') ∧ SameFound E (withFiles E p E.readYaml E.readJson) es es'
    obtain ⟨xs, hx, hxs⟩ := ha m (Nat.le_trans (Nat.le_max_left n n') hm) b hb
    obtain ⟨xs', hx', hxs'⟩ := ha' m (Nat.le_trans (Nat.le_max_right n n') hm) b hb
    rw [refResolveAll_append, refResolveAll_append, refResolveAll_append, refResolveAll_append, hx, hx']
    match hp : refResolveAll E (ref E none m) ⟨sc, .call⟩ b pre with
    | none => exact .inl ⟨none, rfl, rfl⟩
    | some (.panic er) => exact .inl ⟨some er, rfl, rfl⟩
    | some (.ok ps) =>
      match hq : refResolveAll E (ref E none m) ⟨sc, .call⟩ b post with
      | none => exact .inl ⟨none, rfl, rfl⟩
      | some (.panic er) => exact .inl ⟨some er, rfl, rfl⟩
      | some (.ok qs) =>
        refine .inr ⟨ps ++ (xs ++ qs), ps ++ (xs' ++ qs), rfl, rfl, ?_, fun q => ?_⟩
        · rw [hh, hh'] at h1
          simpa [refResolveAll_length hp, refResolveAll_length hq, refResolveAll_length hx, refResolveAll_length hx', Nat.add_assoc] using h1
        · refine ⟨_, _, bits_append (bits_levels _ q ps) (bits_append (bits_carries hxs) (bits_levels _ q qs)),
            bits_append (bits_levels _ q ps) (bits_append (bits_carries (hxs'.imp (fun _ _ h => carries_files h))) (bits_levels _ q qs)), ?_⟩
          have lev : ∀ es : List Entry, List.Forall₂ (SameBit E (withFiles E p E.readYaml E.readJson)) (es.map .level) (es.map .level) := by
            intro es
            rw [List.forall₂_same]
            intro b hb
            obtain ⟨e, _, rfl⟩ := List.mem_map.1 hb
            exact .level (sameSources_refl E p e)
          refine List.rel_append (lev ps) (List.rel_append ?_ (lev qs))
          rw [hv q, List.forall₂_same]
          intro b hb
          obtain ⟨v, _, rfl⟩ := List.mem_map.1 hb
          exact .value (.same v)

/-- C105: two levels next to each other that have no key in common may change places. -/
theorem C105_swap {E : Env} (he : StatelessEnv E) {sc : Scope} {p : Str} {c c' : Cfg}
    (hc : newCfg E.cfg E.configPath (E.readYaml E.configPath) = .ok c) (hc' : newCfg E.cfg p (E.readYaml p) = .ok c')
    (hd : c'.defaults = c.defaults) (hdh : c'.defaultHierarchy = c.defaultHierarchy) {pre post : List Entry} {a b : Entry} {da db : Entries}
    (hh : c.hierarchy = pre ++ [a, b] ++ post) (hh' : c'.hierarchy = pre ++ [b, a] ++ post)
    (ha : LevelHas E sc c a da) (hb : LevelHas E sc c b db) (hab : ∀ q, Entries.getS da q = none ∨ Entries.getS db q = none)
    {s s' : St} (hs : Session E s) (hs' : Session (withFiles E p E.readYaml E.readJson) s')
    (ex ex' : Option ExplOpts) (k : Key) (o : Entries) (r : Res (Option Value)) :
    Gives (withFiles E p E.readYaml E.readJson) (nextInvocation s' sc ex') k o r ↔ Gives E (nextInvocation s sc ex) k o r := by
  refine C105_levels he hc hc' hd hdh hh hh' (by rw [hh, hh']; simp) (.cons ha (.cons hb .nil)) (.cons hb (.cons ha .nil)) (fun q => ?_) hs hs' ex ex' k o r
  simp only [valuesFor, List.filterMap_cons, List.filterMap_nil]
  rcases hab q with h | h <;> rw [h]

/-- C105: levels that have no key in common may stand in any order. -/
theorem C105_order {E : Env} (he : StatelessEnv E) {sc : Scope} {p : Str} {c c' : Cfg}
    (hc : newCfg E.cfg E.configPath (E.readYaml E.configPath) = .ok c) (hc' : newCfg E.cfg p (E.readYaml p) = .ok c')
    (hd : c'.defaults = c.defaults) (hdh : c'.defaultHierarchy = c.defaultHierarchy) {pre post : List Entry} {ls ls' : List (Entry × Entries)}
    (hh : c.hierarchy = pre ++ ls.map (·.1) ++ post) (hh' : c'.hierarchy = pre ++ ls'.map (·.1) ++ post) (hp : ls'.Perm ls)
    (ha : ∀ l ∈ ls, LevelHas E sc c l.1 l.2) (hab : ls.Pairwise (fun a b => ∀ q, Entries.getS a.2 q = none ∨ Entries.getS b.2 q = none))
    {s s' : St} (hs : Session E s) (hs' : Session (withFiles E p E.readYaml E.readJson) s')
    (ex ex' : Option ExplOpts) (k : Key) (o : Entries) (r : Res (Option Value)) :
    Gives (withFiles E p E.readYaml E.readJson) (nextInvocation s' sc ex') k o r ↔ Gives E (nextInvocation s sc ex) k o r := by
  have levels : ∀ ls : List (Entry × Entries), (∀ l ∈ ls, LevelHas E sc c l.1 l.2) → List.Forall₂ (LevelHas E sc c) (ls.map (·.1)) (ls.map (·.2)) := by
    intro ls h
    rw [List.forall₂_map_left_iff, List.forall₂_map_right_iff, List.forall₂_same]
    exact h
  have few : ∀ q (ls : List (Entry × Entries)), ls.Pairwise (fun a b => ∀ q, Entries.getS a.2 q = none ∨ Entries.getS b.2 q = none) →
      (valuesFor (ls.map (·.2)) q).length ≤ 1 := by
    intro q ls h
    induction h with
    | nil => exact Nat.zero_le _
    | @cons l ls h1 _ ih =>
      unfold valuesFor at ih ⊢
      rw [List.map_cons, List.filterMap_cons]
      cases hv : Entries.getS l.2 q with
      | none => exact ih
      | some v =>
        have : (ls.map (·.2)).filterMap (fun d => Entries.getS d q) = [] := by
          rw [List.filterMap_eq_nil_iff]
          intro d hd
          obtain ⟨l', hl', rfl⟩ := List.mem_map.1 hd
          rcases h1 l' hl' q with h2 | h2
          · rw [hv] at h2; cases h2
          · exact h2
        show (v :: (ls.map (·.2)).filterMap (fun d => Entries.getS d q)).length ≤ 1
        rw [this]
        exact Nat.le_refl 1
  refine C105_levels he hc hc' hd hdh hh hh' ?_ (levels ls ha) (levels ls' (fun l hl => ha l (hp.mem_iff.1 hl))) (fun q => ?_) hs hs' ex ex' k o r
  · rw [hh, hh']
    simp [hp.length_eq]
  · have h1 : (valuesFor (ls'.map (·.2)) q).Perm (valuesFor (ls.map (·.2)) q) := by
      unfold valuesFor
      exact (hp.map (·.2)).filterMap _
    have h2 := few q ls hab
    match hv : valuesFor (ls.map (·.2)) q with
    | [] => rw [hv] at h1; rw [h1.eq_nil, hv]
    | [v] => rw [hv] at h1; rw [List.perm_singleton.1 h1, hv]
    | _ :: _ :: _ => rw [hv] at h2; simp at h2

/-- C105: the data of a level may be spread over two levels in its place, unless it is the only one. -/
theorem C105_spread {E : Env} (he : StatelessEnv E) {sc : Scope} {p : Str} {c c' : Cfg}
    (hc : newCfg E.cfg E.configPath (E.readYaml E.configPath) = .ok c) (hc' : newCfg E.cfg p (E.readYaml p) = .ok c')
    (hd : c'.defaults = c.defaults) (hdh : c'.defaultHierarchy = c.defaultHierarchy) {pre post : List Entry} {a b₁ b₂ : Entry} {d d₁ d₂ : Entries}
    (hh : c.hierarchy = pre ++ [a] ++ post) (hh' : c'.hierarchy = pre ++ [b₁, b₂] ++ post) (h1 : pre ++ post ≠ [])
    (ha : LevelHas E sc c a d) (hb₁ : LevelHas E sc c b₁ d₁) (hb₂ : LevelHas E sc c b₂ d₂)
    (hab : ∀ q, Entries.getS d₁ q = Entries.getS d q ∧ Entries.getS d₂ q = none ∨ Entries.getS d₁ q = none ∧ Entries.getS d₂ q = Entries.getS d q)
    {s s' : St} (hs : Session E s) (hs' : Session (withFiles E p E.readYaml E.readJson) s')
    (ex ex' : Option ExplOpts) (k : Key) (o : Entries) (r : Res (Option Value)) :
    Gives (withFiles E p E.readYaml E.readJson) (nextInvocation s' sc ex') k o r ↔ Gives E (nextInvocation s sc ex) k o r := by
  have hl : pre.length + post.length ≠ 0 := by
    rw [← List.length_append]
    exact fun h => h1 (List.length_eq_zero_iff.1 h)
  refine C105_levels he hc hc' hd hdh hh hh' ?_ (.cons ha .nil) (.cons hb₁ (.cons hb₂ .nil)) (fun q => ?_) hs hs' ex ex' k o r
  · rw [hh, hh']
    simp only [List.length_append, List.length_cons, List.length_nil]
    omega
  · simp only [valuesFor, List.filterMap_cons, List.filterMap_nil]
    rcases hab q with ⟨h, h'⟩ | ⟨h, h'⟩ <;> rw [h, h']

/-! ### Not vacuous -/

namespace Found105

def dataA : Entries := [(s "x", .arr [.int 1]), (s "lookup_options", .map [(s "x", .map [(s "merge", s "unique")])])]
def dataB : Entries := [(s "y", s "%{lookup('z')}"), (s "z", s "text")]
def dataC : Entries := [(s "x", .arr [.int 2]), (s "y", s "other")]
def dataA1 : Entries := [(s "lookup_options", .map [(s "x", .map [(s "merge", s "unique")])])]
def dataA2 : Entries := [(s "x", .arr [.int 1])]

/-- `/h/hiera.yaml`, with the levels `a`, `b` and `c`; `/h/swap.yaml`, with `b` before `a`; and `/h/spread.yaml`, with what is in `a`
spread over two files. -/
def world : Env := mk (cfg [entry "a" "a.yaml", entry "b" "b.yaml", entry "c" "c.yaml"])
  [("/h/swap.yaml".toList, cfg [entry "b" "b.yaml", entry "a" "a.yaml", entry "c" "c.yaml"]),
    ("/h/spread.yaml".toList, cfg [entry "a1" "a1.yaml", entry "a2" "a2.yaml", entry "b" "b.yaml", entry "c" "c.yaml"]),
    ("/h/data/a.yaml".toList, .map dataA), ("/h/data/b.yaml".toList, .map dataB), ("/h/data/c.yaml".toList, .map dataC),
    ("/h/data/a1.yaml".toList, .map dataA1), ("/h/data/a2.yaml".toList, .map dataA2)]

def noVars : Scope := .map []

theorem stateless : StatelessEnv world where
  top := .inl rfl
  mux := fun _ _ h => nomatch h
  fns := fun _ _ h => nomatch h
  plugins := fun _ _ _ h => nomatch h

/-- A level is resolved and is read at one place, where it has the given data. -/
def has (E : Env) (c : Cfg) (e : Entry) (d : Entries) : Bool :=
  match refResolve E (ref E none 1) ⟨noVars, .call⟩ none c.defaults with
  | some (.ok b) => match refResolve E (ref E none 1) ⟨noVars, .call⟩ (some b) e with
    | some (.ok x) => decide (Kept102.place E x = some (.ok d))
    | _ => false
  | _ => false

theorem has_spec {E : Env} {c : Cfg} {e : Entry} {d : Entries} (h : has E c e d = true) : LevelHas E noVars c e d := by
  unfold has at h
  split at h
  · rename_i b hb
    split at h
    · rename_i x hx
      obtain ⟨n, o, q, h1, h2, h3⟩ := Kept102.place_spec (of_decide_eq_true h)
      exact ⟨1, b, x, hb, hx, .place h1 h2 rfl h3⟩
    · cases h
  · cases h

/-- Two configurations that differ in their hierarchies only. -/
def compare (E : Env) (p : Str) (ok : Cfg → List Entry → List Entry → Bool) : Bool :=
  match newCfg E.cfg E.configPath (E.readYaml E.configPath), newCfg E.cfg p (E.readYaml p) with
  | .ok c, .ok c' => decide (c'.defaults = c.defaults) && decide (c'.defaultHierarchy = c.defaultHierarchy) && ok c c.hierarchy c'.hierarchy
  | _, _ => false

theorem compare_spec {E : Env} {p : Str} {ok : Cfg → List Entry → List Entry → Bool} (h : compare E p ok = true) : ∃ c c',
    newCfg E.cfg E.configPath (E.readYaml E.configPath) = .ok c ∧ newCfg E.cfg p (E.readYaml p) = .ok c' ∧ c'.defaults = c.defaults ∧
    c'.defaultHierarchy = c.defaultHierarchy ∧ ok c c.hierarchy c'.hierarchy = true := by
  unfold compare at h
  split at h
  · rename_i c c' hc hc'
    simp only [Bool.and_eq_true, decide_eq_true_eq] at h
    exact ⟨c, c', hc, hc', h.1.1, h.1.2, h.2⟩
  · cases h

def swapped (c : Cfg) : List Entry → List Entry → Bool
  | [a, b, x], [b', a', x'] => decide (a' = a) && decide (b' = b) && decide (x' = x) && has world c a dataA && has world c b dataB
  | _, _ => false

def spread (c : Cfg) : List Entry → List Entry → Bool
  | [a, b, x], [a1, a2, b', x'] => decide (b' = b) && decide (x' = x) && has world c a dataA && has world c a1 dataA1 && has world c a2 dataA2
  | _, _ => false

example (k : Key) (o : Entries) (r : Res (Option Value)) :
    Gives (withFiles world "/h/swap.yaml".toList world.readYaml world.readJson) (newInvocation noVars none) k o r ↔ Gives world (newInvocation noVars none) k o r := by
  have h : compare world "/h/swap.yaml".toList swapped = true := by decide +kernel
  obtain ⟨c, c', hc, hc', h1, h2, h3⟩ := compare_spec h
  unfold swapped at h3
  split at h3
  · rename_i a b x b' a' x' e1 e2
    simp only [Bool.and_eq_true, decide_eq_true_eq] at h3
    obtain ⟨⟨⟨⟨rfl, rfl⟩, rfl⟩, h4⟩, h5⟩ := h3
    refine C105_swap stateless hc hc' h1 h2 (pre := []) (post := [x']) e1 e2 (has_spec h4) (has_spec h5) (fun q => ?_) (.start noVars none)
      (.start noVars none) none none k o r
    simp only [Entries.getS, Entries.get, List.find?, dataA, dataB, s, equals_str]
    cases hx : q == "x".toList
    · cases ho : q == "lookup_options".toList
      · exact .inl rfl
      · rw [beq_iff_eq] at ho
        subst ho
        exact .inr (by decide)
    · rw [beq_iff_eq] at hx
      subst hx
      exact .inr (by decide)
  · cases h3

example (k : Key) (o : Entries) (r : Res (Option Value)) :
    Gives (withFiles world "/h/spread.yaml".toList world.readYaml world.readJson) (newInvocation noVars none) k o r ↔ Gives world (newInvocation noVars none) k o r := by
  have h : compare world "/h/spread.yaml".toList spread = true := by decide +kernel
  obtain ⟨c, c', hc, hc', h1, h2, h3⟩ := compare_spec h
  unfold spread at h3
  split at h3
  · rename_i a b x a1 a2 b' x' e1 e2
    simp only [Bool.and_eq_true, decide_eq_true_eq] at h3
    obtain ⟨⟨⟨⟨rfl, rfl⟩, h4⟩, h5⟩, h6⟩ := h3
    refine C105_spread stateless hc hc' h1 h2 (pre := []) (post := [b', x']) e1 e2 (by simp) (has_spec h4) (has_spec h5) (has_spec h6) (fun q => ?_)
      (.start noVars none) (.start noVars none) none none k o r
    simp only [Entries.getS, Entries.get, List.find?, dataA, dataA1, dataA2, s, equals_str]
    cases hx : q == "x".toList
    · exact .inl ⟨rfl, rfl⟩
    · rw [beq_iff_eq] at hx
      subst hx
      exact .inr (by decide)
  · cases h3

/-- What all three give for `x`. -/
example : ((eval world 8).lookup ⟨"x".toList, [.name "x".toList]⟩ [] (newInvocation noVars none)).map (·.1) =
    some (.ok (some (.arr [.int 1, .int 2]))) := by decide +kernel

end Found105

end Hiera
