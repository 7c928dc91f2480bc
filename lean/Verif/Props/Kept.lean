/- C102: wherever and however data is kept. -/
import Verif.Spec.Kept
import Verif.Lemmas.Spelled
import Verif.Props.Separate

set_option autoImplicit false

namespace Hiera
open Value Spec World

theorem refMerge_pad (st : Strategy) {xs : List (Ans (Option Value))} (h : xs.length ≠ 1) :
    refMerge st xs = refMerge st (pure none :: pure none :: xs) := by
  cases xs with
  | nil => cases st <;> rfl
  | cons x xs =>
    rw [← List.nil_append (pure none :: pure none :: x :: xs), refMerge_silent st [] (pure none :: x :: xs) (by simp), List.nil_append,
      ← List.nil_append (pure none :: x :: xs), refMerge_silent st [] (x :: xs) h, List.nil_append]

theorem samePlaces_of {E E' : Env} {e e' : Entry} {n n' : Str} {ls ls' : List Loc} (h : List.Forall₂ (SameAt E E' e e' n n') ls ls') :
    SamePlaces E E' e e' n n' ls ls' := by
  induction h with
  | nil => exact .nil
  | cons h _ ih => exact .both h ih

theorem samePlaces_same {E E' : Env} {e e' : Entry} {n n' : Str} {ls : List Loc} (h : ∀ l ∈ ls, SameAt E E' e e' n n' l l) :
    SamePlaces E E' e e' n n' ls ls := samePlaces_of (List.forall₂_same.2 h)

/-- Nothing is read at a place that is not there. -/
theorem refAt_nothing (E : Env) (r : Ref) (C : Ctx) (k : Key) (e : Entry) {l : Loc} (hl : ¬IsRead l) : refAt E r C k e l = pure none := by
  cases l with
  | path o q x => cases x with
    | true => exact absurd rfl hl
    | false => rfl
  | uri o q => exact absurd trivial hl
  | _ => rfl

theorem refEntry_places {E : Env} {r : Ref} {C : Ctx} {k : Key} {st : Strategy} {e : Entry} {ls : List Loc} (h : e.locations = some ls) (h1 : ls.length ≠ 1) :
    refEntry E r C k st e = refMerge st (pure none :: pure none :: ls.map (refAt E r C k e)) := by
  unfold refEntry
  rw [h, ← refMerge_pad st (by simpa using h1)]
  match ls, h1 with
  | [], _ => rfl
  | [_], h1 => exact absurd rfl h1
  | _ :: _ :: _, _ => rfl

section
variable {E : Env} {p : Str} {ry rj : Str → FileRes} {sc : Scope} {r r' : Ref} {C : Ctx}

theorem refSource_same (h : RefAlike AnyText Everything sc r r') (hC : C.scope = sc) (k : Key) {e e' : Entry} {n n' : Str} {l l' : Option Loc}
    (he : e.function = some (.dataHash, n)) (he' : e'.function = some (.dataHash, n'))
    (hs : SameData (refHash E e n (refOpts e l)) (refHash (withFiles E p ry rj) e' n' (refOpts e' l'))) :
    Alike (CleanO (RefersIn AnyText Everything)) (refSource E r C k e l) (refSource (withFiles E p ry rj) r' C k e' l') := by
  unfold refSource
  rw [he, he']
  dsimp only
  generalize refHash E e n (refOpts e l) = x at hs
  generalize refHash (withFiles E p ry rj) e' n' (refOpts e' l') = y at hs
  cases hs with
  | failed => exact .fail
  | @read h1 h2 hq =>
    show Alike _ (match Entries.getS h1 k.root with | some v => refInterp E r C true v | none => Pure.pure none)
      (match Entries.getS h2 k.root with | some v => refInterp (withFiles E p ry rj) r' C true v | none => Pure.pure none)
    have hq := hq k.root
    generalize Entries.getS h1 k.root = x at hq
    generalize Entries.getS h2 k.root = y at hq
    cases hq with
    | none => exact .pure cleanO_none
    | @some v w hv =>
      dsimp only
      rw [refInterp_files E p ry rj r', ← refInterp_same E r' C hv]
      exact (refInterp_alike (shut_everything E sc) h hC true v (withinV_any v)).post (fun _ hw => (shut_everything E sc).inO hw)

theorem refAt_same (h : RefAlike AnyText Everything sc r r') (hC : C.scope = sc) (k : Key) {e e' : Entry} {n n' : Str} {l l' : Loc}
    (he : e.function = some (.dataHash, n)) (he' : e'.function = some (.dataHash, n')) (hs : SameAt E (withFiles E p ry rj) e e' n n' l l') :
    Alike (CleanO (RefersIn AnyText Everything)) (refAt E r C k e l) (refAt (withFiles E p ry rj) r' C k e' l') := by
  have hread : ∀ (E : Env) (r : Ref) (e : Entry) (l : Loc), IsRead l → refAt E r C k e l = refSource E r C k e (some l) := by
    intro E r e l hl
    cases l with
    | path o q x => cases x with
      | true => rfl
      | false => cases hl
    | uri o q => rfl
    | _ => exact hl.elim
  cases hs with
  | read h1 h2 h3 => rw [hread _ _ _ _ h1, hread _ _ _ _ h2]; exact refSource_same h hC k he he' h3
  | neither h1 h2 => rw [refAt_nothing _ _ _ _ _ h1, refAt_nothing _ _ _ _ _ h2]; exact .pure cleanO_none

theorem refEntry_same (h : RefAlike AnyText Everything sc r r') (hC : C.scope = sc) (k : Key) (st : Strategy) {e e' : Entry}
    (hs : SameSources E (withFiles E p ry rj) e e') :
    Alike (CleanO (RefersIn AnyText Everything)) (refEntry E r C k st e) (refEntry (withFiles E p ry rj) r' C k st e') := by
  cases hs with
  | nowhere h1 h2 h3 h4 h5 =>
    unfold refEntry
    rw [h3, h4]
    exact refSource_same h hC k h1 h2 h5
  | @places _ n n' ls ls' h1 h2 h3 h4 h5 h6 =>
    by_cases ho : ls.length = 1
    · have ho' := h5.1 ho
      rw [List.length_eq_one_iff] at ho ho'
      obtain ⟨l, rfl⟩ := ho
      obtain ⟨l', rfl⟩ := ho'
      have at_ : SameAt E (withFiles E p ry rj) e e' n n' l l' := by
        cases h6 with
        | both h _ => exact h
        | fewer h h' => cases h' with | more h'' _ => exact .neither h h''
        | more h h' => cases h' with | fewer h'' _ => exact .neither h'' h
      unfold refEntry
      rw [h3, h4]
      exact refAt_same h hC k h1 h2 at_
    · rw [refEntry_places h3 ho, refEntry_places h4 (fun h => ho (h5.2 h))]
      have key : ∀ xs ys : List (Ans (Option Value)), 2 ≤ xs.length → 2 ≤ ys.length → List.Forall₂ (Alike (CleanO (RefersIn AnyText Everything))) xs ys →
          Alike (CleanO (RefersIn AnyText Everything)) (refMerge st (xs ++ ls.map (refAt E r C k e)))
            (refMerge st (ys ++ ls'.map (refAt (withFiles E p ry rj) r' C k e'))) := by
        clear h3 h4 h5 ho
        induction h6 with
        | nil => intro xs ys _ _ hs; simpa using refMerge_alike st hs
        | @both l l' _ _ h7 _ ih =>
          intro xs ys hx hy hs
          have := ih (xs ++ [refAt E r C k e l]) (ys ++ [refAt (withFiles E p ry rj) r' C k e' l']) (by simp; omega) (by simp; omega)
            (List.rel_append hs (.cons (refAt_same h hC k h1 h2 h7) .nil))
          rwa [List.append_assoc, List.append_assoc] at this
        | fewer h7 _ ih =>
          intro xs ys hx hy hs
          rw [List.map_cons, refAt_nothing _ _ _ _ _ h7, refMerge_silent st xs _ (by simp; omega)]
          exact ih xs ys hx hy hs
        | more h7 _ ih =>
          intro xs ys hx hy hs
          rw [List.map_cons, refAt_nothing _ _ _ _ _ h7, refMerge_silent st ys _ (by simp; omega)]
          exact ih xs ys hx hy hs
      exact key [pure none, pure none] [pure none, pure none] (Nat.le_refl 2) (Nat.le_refl 2) (.cons (.pure cleanO_none) (.cons (.pure cleanO_none) .nil))
  | other hn =>
    exact refEntry_alike (shut_everything E sc) h hC (K := Everything) trivial st (fun n h => absurd h (hn n))

end

/-- C102: lookups give the same if the levels have the same data, wherever and however it is kept: in other files or directories, as YAML or
JSON, with the keys in another order, with other names of levels, with expressions that are written in other ways. -/
theorem C102_kept {E : Env} (he : StatelessEnv E) {sc : Scope} {p : Str} {ry rj : Str → FileRes} {c c' : Cfg}
    (hc : newCfg E.cfg E.configPath (E.readYaml E.configPath) = .ok c) (hc' : newCfg E.cfg p (ry p) = .ok c')
    (hh : SameHoldings E (withFiles E p ry rj) sc c c')
    (hd : ∀ n, refLevels E (ref E none n) ⟨sc, .call⟩ c c.defaultHierarchy = refLevels (withFiles E p ry rj) (ref (withFiles E p ry rj) none n) ⟨sc, .call⟩ c' c'.defaultHierarchy)
    {s s' : St} (hs : Session E s) (hs' : Session (withFiles E p ry rj) s') (ex ex' : Option ExplOpts) (k : Key) (o : Entries) (r : Res (Option Value)) :
    Gives (withFiles E p ry rj) (nextInvocation s' sc ex') k o r ↔ Gives E (nextInvocation s sc ex) k o r := by
  rw [C81_session _ (statelessEnv_files he ..) ⟨c', hc'⟩ hs', C81_session _ he ⟨c, hc⟩ hs]
  have key : ∀ n m, refAnswer (withFiles E p ry rj) sc k o n m = refAnswer E sc k o n m := by
    intro n m
    have hd := hd n
    rw [ref_none_files E p ry rj, refLevels_files E p ry rj] at hd
    refine refAnswer_alike (shut_everything E sc) ?_ hd hc hc' trivial o m
    have hh := hh n
    rw [ref_none_files E p ry rj, refLevels_files E p ry rj] at hh
    refine hh.imp id ?_
    rintro ⟨es, es', h1, h2, h3⟩
    refine ⟨es, es', fun r r' C k st _ hr hC _ => refMerge_alike st ?_, h1, h2⟩
    rw [List.forall₂_map_left_iff, List.forall₂_map_right_iff]
    exact h3.imp (fun _ _ h4 => refEntry_same hr hC k st h4)
  simp only [Answer, key]

/-! ### Not vacuous -/

namespace Kept102

def node : Entries := [(s "x", .arr [.int 1]), (s "lookup_options", .map [(s "x", .map [(s "merge", s "unique")])])]
def node' : Entries := [(s "lookup_options", .map [(s "x", .map [(s "merge", s "unique")])]), (s "x", .arr [.int 1])]
def common : Entries := [(s "x", .arr [.int 2]), (s "y", s "%{lookup('x')}")]
def common' : Entries := [(s "y", s "%{ hiera(\"x\") }"), (s "x", .arr [.int 2])]

/-- `/h/hiera.yaml`, with YAML files in `data`, and `/h/json.yaml`, with JSON files in `j`. -/
def world : Env :=
  { mk (cfg [entry "nodes" "nodes/%{node}.yaml", entry "common" "common.yaml"])
      [("/h/json.yaml".toList, .map [(s "version", .int 5), (s "defaults", .map [(s "datadir", s "j"), (s "data_hash", s "json_data")]),
          (s "hierarchy", .arr [entry "one" "%{node}.json", entry "two" "all.json"])]),
        ("/h/data/nodes/web.yaml".toList, .map node), ("/h/data/common.yaml".toList, .map common),
        ("/h/j/web.json".toList, .null), ("/h/j/all.json".toList, .null)] with
    readJson := fun p => if p = "/h/j/web.json".toList then .value (.map node') else if p = "/h/j/all.json".toList then .value (.map common') else .missing }

def scope : Scope := .map [(s "node", s "web")]

def other : Env := withFiles world "/h/json.yaml".toList world.readYaml world.readJson

/-- What the entries of a resolved hierarchy are: those of a function that gives all data, at one place that is read. -/
def place (E : Env) (e : Entry) : Option (Res Entries) :=
  match e.function, e.locations with
  | some (.dataHash, n), some [.path o q true] => some (refHash E e n (refOpts e (some (.path o q true))))
  | _, _ => none

def places (E : Env) (c : Res Cfg) (n : Nat) : Option (List (Option (Res Entries))) :=
  match c with
  | .ok c => match refLevels E (ref E none n) ⟨scope, .call⟩ c c.hierarchy with
    | some (.ok es) => some (es.map (place E))
    | _ => none
  | _ => none

/-- Nothing is resolved without nested lookups of variables. -/
def never (E : Env) (c : Res Cfg) : Bool :=
  match c with
  | .ok c => match refLevels E (ref E none 0) ⟨scope, .call⟩ c c.hierarchy with
    | none => true
    | _ => false
  | _ => false

theorem getS_two {a b : String} (hab : a.toList ≠ b.toList) {v v' w w' : Value} (hv : Respelled v v') (hw : Respelled w w') (q : Str) :
    Option.Rel Respelled (Entries.getS [(s a, v), (s b, w)] q) (Entries.getS [(s b, w'), (s a, v')] q) := by
  simp only [Entries.getS, Entries.get, List.find?, s, equals_str]
  by_cases h1 : q = a.toList
  · subst h1
    have : (a.toList == b.toList) = false := by simpa using hab
    simpa [this] using Option.Rel.some hv
  · have : (q == a.toList) = false := by simpa using h1
    simp only [this]
    cases q == b.toList
    · exact .none
    · exact .some hw

/-- `%{lookup('x')}` and `%{ hiera("x") }` are the same. -/
theorem respelled : Respelled (s "%{lookup('x')}") (s "%{ hiera(\"x\") }") := by
  have h1 : Splits "%{lookup('x')}".toList [.expr "lookup('x')".toList] := .expr (e := "lookup('x')".toList) (by decide) .nil
  have h2 : Splits "%{ hiera(\"x\") }".toList [.expr " hiera(\"x\") ".toList] := .expr (e := " hiera(\"x\") ".toList) (by decide) .nil
  have h3 : Trimmed "lookup('x')".toList "lookup('x')".toList := ⟨⟨[], [], rfl, by decide, by decide⟩, by decide, by decide⟩
  have h4 : Trimmed " hiera(\"x\") ".toList "hiera(\"x\")".toList := ⟨⟨[' '], [' '], rfl, by decide, by decide⟩, by decide, by decide⟩
  exact .str h1 h2 (.cons (.asks (.lookup h3 ⟨by decide, by decide, by decide, '\'', .inl rfl, by decide, rfl⟩)
    (.hiera (x := "x".toList) h4 ⟨by decide, by decide, by decide, '"', .inr rfl, by decide, rfl⟩)) .nil)

theorem place_spec {E : Env} {e : Entry} {h : Res Entries} (hp : place E e = some h) : ∃ n o q, e.function = some (.dataHash, n) ∧
    e.locations = some [.path o q true] ∧ refHash E e n (refOpts e (some (.path o q true))) = h := by
  unfold place at hp
  split at hp
  · rename_i n o q h1 h2
    cases hp
    exact ⟨n, o, q, h1, h2, rfl⟩
  · cases hp

theorem same {E E' : Env} {e e' : Entry} {h h' : Entries} (hp : place E e = some (.ok h)) (hp' : place E' e' = some (.ok h'))
    (hs : ∀ q, Option.Rel Respelled (Entries.getS h q) (Entries.getS h' q)) : SameSources E E' e e' := by
  obtain ⟨n, o, q, h1, h2, h3⟩ := place_spec hp
  obtain ⟨n', o', q', h1', h2', h3'⟩ := place_spec hp'
  refine .places h1 h1' h2 h2' Iff.rfl (.both (.read rfl rfl ?_) .nil)
  rw [h3, h3']
  exact .read hs

theorem places_spec {E : Env} {c : Cfg} {r : Res Cfg} (hr : r = .ok c) {a b : Res Entries} (h : places E r 1 = some [some a, some b]) (n : Nat) :
    ∃ x y, refLevels E (ref E none (n + 1)) ⟨scope, .call⟩ c c.hierarchy = some (.ok [x, y]) ∧ place E x = some a ∧ place E y = some b := by
  subst hr
  unfold places at h
  dsimp only at h
  split at h
  · rename_i es he
    rw [Option.some.injEq, List.map_eq_cons_iff] at h
    obtain ⟨x, l, rfl, hx, h⟩ := h
    rw [List.map_eq_cons_iff] at h
    obtain ⟨y, l, rfl, hy, h⟩ := h
    rw [List.map_eq_nil_iff] at h
    subst h
    exact ⟨x, y, refLevels_le (ref_mono E none (Nat.le_add_left 1 n)) ⟨scope, .call⟩ c c.hierarchy _ he, hx, hy⟩
  · cases h

theorem never_spec {E : Env} {c : Cfg} {r : Res Cfg} (hr : r = .ok c) (h : never E r = true) :
    refLevels E (ref E none 0) ⟨scope, .call⟩ c c.hierarchy = none := by
  subst hr
  unfold never at h
  dsimp only at h
  split at h
  · assumption
  · cases h

theorem holdings {c c' : Cfg} (hc : newCfg world.cfg world.configPath (world.readYaml world.configPath) = .ok c)
    (hc' : newCfg other.cfg other.configPath (other.readYaml other.configPath) = .ok c') : SameHoldings world other scope c c' := by
  have h1 : places world (newCfg world.cfg world.configPath (world.readYaml world.configPath)) 1 = some [some (.ok node), some (.ok common)] := by
    decide +kernel
  have h2 : places other (newCfg other.cfg other.configPath (other.readYaml other.configPath)) 1 = some [some (.ok node'), some (.ok common')] := by
    decide +kernel
  have h3 : never world (newCfg world.cfg world.configPath (world.readYaml world.configPath)) = true := by decide +kernel
  have h4 : never other (newCfg other.cfg other.configPath (other.readYaml other.configPath)) = true := by decide +kernel
  intro n
  cases n with
  | zero => exact .inl ⟨none, never_spec hc h3, never_spec hc' h4⟩
  | succ n =>
    obtain ⟨x, y, e1, e2, e3⟩ := places_spec hc h1 n
    obtain ⟨x', y', f1, f2, f3⟩ := places_spec hc' h2 n
    exact .inr ⟨_, _, e1, f1, .cons (same e2 f2 (getS_two (by decide) (.same _) (.same _))) (.cons (same e3 f3 (getS_two (by decide) (.same _) respelled)) .nil)⟩

theorem stateless : StatelessEnv world where
  top := .inl rfl
  mux := fun _ _ h => nomatch h
  fns := fun _ _ h => nomatch h
  plugins := fun _ _ _ h => nomatch h

/-- Both have no default hierarchy. -/
def noDefaults (E : Env) (r : Res Cfg) : Bool :=
  match r with
  | .ok c => match c.defaultHierarchy, refLevels E (ref E none 0) ⟨scope, .call⟩ c [] with
    | [], some (.ok []) => true
    | _, _ => false
  | _ => false

theorem noDefaults_spec {E : Env} {c : Cfg} {r : Res Cfg} (hr : r = .ok c) (h : noDefaults E r = true) (n : Nat) :
    refLevels E (ref E none n) ⟨scope, .call⟩ c c.defaultHierarchy = some (.ok []) := by
  subst hr
  unfold noDefaults at h
  dsimp only at h
  split at h
  · rename_i h1 h2
    rw [h1]
    exact refLevels_le (ref_mono E none (Nat.zero_le n)) ⟨scope, .call⟩ c [] _ h2
  · cases h

example (k : Key) (o : Entries) (r : Res (Option Value)) : Gives other (newInvocation scope none) k o r ↔ Gives world (newInvocation scope none) k o r := by
  have h1 : noDefaults world (newCfg world.cfg world.configPath (world.readYaml world.configPath)) = true := by decide +kernel
  have h2 : noDefaults other (newCfg other.cfg other.configPath (other.readYaml other.configPath)) = true := by decide +kernel
  cases hc : newCfg world.cfg world.configPath (world.readYaml world.configPath) with
  | panic e => rw [hc] at h1; cases h1
  | ok c =>
    cases hc' : newCfg other.cfg other.configPath (other.readYaml other.configPath) with
    | panic e => rw [hc'] at h2; cases h2
    | ok c' =>
      exact C102_kept stateless hc hc' (holdings hc hc') (fun n => by
        rw [noDefaults_spec hc h1 n]
        exact (noDefaults_spec hc' h2 n).symm) (.start scope none) (.start scope none) none none k o r

/-- What both give: the numbers of both files. -/
example : ((eval other 8).lookup ⟨"x".toList, [.name "x".toList]⟩ [] (newInvocation scope none)).map (·.1) =
    some (.ok (some (.arr [.int 1, .int 2]))) := by decide +kernel

end Kept102

end Hiera
