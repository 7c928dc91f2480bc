/- C87, C88: what answers do not depend on. -/
import Verif.Lemmas.Separate
import Verif.Props.Printed
import Verif.Props.Termination

set_option autoImplicit false

namespace Hiera
open Value Spec World

/-! ### Sets of keys -/

theorem refersIn_inert {T : Str → Prop} (hT : Inert T) {K : Referent → Prop} {s : Str} (hs : T s) : RefersIn T K s := by
  have hu := splits_unmarked (hT.unmarked hs)
  refine ⟨fun ts hts => ?_, fun ts e x i hts he => ?_⟩
  · rw [splits_unique hts hu, ← List.append_nil (s.map Tok.chr)]
    exact .text hs .nil
  · rw [splits_unique hts hu] at he
    simp at he

theorem Spec.SelfContained.shut {E : Env} {T : Str → Prop} {K : Referent → Prop} {sc : Scope} (h : SelfContained E T K sc) : Shut E T K sc where
  nil := h.inert.nil
  append := h.inert.append
  sub := fun _ hs => refersIn_inert h.inert hs
  text := h.text
  options := h.options
  again := h.again
  vars := h.vars
  dig := h.dig
  env := h.env
  scope := h.scope
  custom := h.custom
  conv := h.conv

/-- All keys and variables. -/
def Everything : Referent → Prop := fun _ => True

/-- All text. -/
def AnyText : Str → Prop := fun _ => True

theorem refersIn_any (s : Str) : RefersIn AnyText Everything s := by
  have all : ∀ ts, TidyToks AnyText ts := by
    intro ts
    induction ts with
    | nil => exact .nil
    | cons t ts ih =>
      cases t with
      | chr c => exact .text (s := [c]) trivial ih
      | expr e => exact .expr (fun _ _ _ _ => trivial) ih
  exact ⟨fun ts _ => all ts, fun _ _ _ _ _ _ _ _ => trivial⟩

theorem withinV_any (v : Value) : WithinV AnyText Everything v := fun s _ => refersIn_any s

theorem withinProg_any (sc : Scope) : ∀ q, WithinProg AnyText Everything sc q
  | .ret _ => .ret (fun v _ => withinV_any v)
  | .panic _ => .panic
  | .interpolate _ k => .interpolate (withinV_any _) (fun x _ => withinProg_any sc (k x))
  | .lookup _ _ k => .lookup (fun _ _ => trivial) (fun x _ => withinProg_any sc (k x))
  | .explain _ k => .explain (withinProg_any sc k)
  | .scopeGet _ k => .scopeGet (withinProg_any sc (k _))
  | .cache _ _ _ => .cache
  | .cachedValue _ _ => .cachedValue

theorem shut_everything (E : Env) (sc : Scope) : Shut E AnyText Everything sc where
  nil := trivial
  append := fun _ _ => trivial
  sub := fun s _ => refersIn_any s
  text := fun _ _ => trivial
  options := trivial
  again := fun _ _ _ _ => trivial
  vars := fun _ v _ _ => withinV_any v
  dig := fun _ _ _ _ _ _ => withinV_any _
  env := fun _ v _ _ => withinV_any v
  scope := fun _ v _ _ => withinV_any v
  custom := fun _ _ _ _ _ => withinProg_any sc _
  conv := fun _ _ _ y _ _ _ => withinV_any y

/-! ### The data of entries -/

theorem refHash_alike {E : Env} {T : Str → Prop} {K : Referent → Prop} {p : Str} {ry rj : Str → FileRes} {e : Entry} {n : Str} {o : Entries}
    (hy : ∀ v, Entries.getS o "path".toList = some v → SameFor K (E.readYaml (E.toStr v)) (ry (E.toStr v)))
    (hj : ∀ v, Entries.getS o "path".toList = some v → SameFor K (E.readJson (E.toStr v)) (rj (E.toStr v)))
    (hyK : ∀ p es q v, E.readYaml p = .value (.map es) → K (.key q) → Entries.getS es q = some v → WithinV T K v)
    (hjK : ∀ p es q v, E.readJson p = .value (.map es) → K (.key q) → Entries.getS es q = some v → WithinV T K v)
    (hhK : ∀ f o es q v, Loads E (.hash f) → f o = .ok (some (.map es)) → K (.key q) → Entries.getS es q = some v → WithinV T K v) :
    HashAlike T K (refHash E e n o) (refHash (withFiles E p ry rj) e n o) := by
  have file : ∀ read read' : Str → FileRes,
      (∀ v, Entries.getS o "path".toList = some v → SameFor K (read (E.toStr v)) (read' (E.toStr v))) →
      (∀ p es q v, read p = .value (.map es) → K (.key q) → Entries.getS es q = some v → WithinV T K v) →
      HashAlike T K (fileData E read o) (fileData (withFiles E p ry rj) read' o) := by
    intro read read' hs hK
    unfold fileData
    cases hp : Entries.getS o "path".toList with
    | none => exact .inl ⟨_, rfl, rfl⟩
    | some v =>
      have h := hs v hp
      show HashAlike T K (match read (E.toStr v) with | .missing => _ | .err e => _ | .value (.map es) => _ | .value _ => _)
        (match read' (E.toStr v) with | .missing => _ | .err e => _ | .value (.map es) => _ | .value _ => _)
      generalize hx : read (E.toStr v) = x at h
      generalize read' (E.toStr v) = y at h
      cases h with
      | maps hq => exact .inr ⟨_, _, rfl, rfl, fun q hk => ⟨hq q hk, fun w hw => hK _ _ q w hx hk hw⟩⟩
      | same =>
        cases x with
        | missing => exact .inr ⟨[], [], rfl, rfl, fun q _ => ⟨rfl, fun _ h => nomatch h⟩⟩
        | err e => exact .inl ⟨e, rfl, rfl⟩
        | value w =>
          cases w with
          | map es => exact .inr ⟨es, es, rfl, rfl, fun q hk => ⟨rfl, fun w hw => hK _ _ q w hx hk hw⟩⟩
          | _ => exact .inl ⟨_, rfl, rfl⟩
  unfold refHash
  split
  · exact file _ _ hy hyK
  split
  · exact file _ _ hj hjK
  have hl : loadFunction (withFiles E p ry rj) e n = loadFunction E e n := rfl
  rw [hl]
  cases hf : loadFunction E e n with
  | panic er => exact .inl ⟨er, rfl, rfl⟩
  | ok f =>
    rcases f with _ | (f | f | f)
    · exact .inr ⟨[], [], rfl, rfl, fun q _ => ⟨rfl, fun _ h => nomatch h⟩⟩
    · dsimp only
      cases ho : f o with
      | panic er => exact .inl ⟨er, rfl, rfl⟩
      | ok v =>
        have none : HashAlike T K (.ok []) (.ok []) := .inr ⟨[], [], rfl, rfl, fun q _ => ⟨rfl, fun _ h => nomatch h⟩⟩
        cases v with
        | none => exact none
        | some v =>
          cases v with
          | map es => exact .inr ⟨es, es, rfl, rfl, fun q hk => ⟨rfl, fun w hw => hhK f o es q w (loads_of hf) ho hk hw⟩⟩
          | _ => exact none
    · exact .inl ⟨_, rfl, rfl⟩
    · exact .inl ⟨_, rfl, rfl⟩

theorem getS_put_same (es : Entries) (k : Str) (v : Value) : Entries.getS (Entries.put es (.str k) v) k = some v := by
  unfold Entries.getS
  induction es with
  | nil => simp [Entries.put, Entries.get]
  | cons e es ih =>
    unfold Entries.put
    by_cases h : Value.equals (.str k) e.1 = true
    · rw [if_pos h]; simp [Entries.get, h]
    · rw [if_neg h]; rw [Entries.get_cons, if_neg (by simpa using h)]; exact ih

theorem refOpts_path (e : Entry) (l : Loc) : Entries.getS (refOpts e (some l)) "path".toList = some (.str l.resolved) := by
  unfold refOpts Entries.merge
  dsimp only
  split
  · rename_i h; cases h
  · split
    · simp [Entries.getS, Entries.get]
    · exact getS_put_same _ _ _

/-! ### Answers -/

theorem levels_cases {E : Env} {T : Str → Prop} {K : Referent → Prop} {sc : Scope} {p : Str} {ry rj : Str → FileRes} (hK : Shut E T K sc)
    {c : Cfg} {n : Nat}
    (h : ∀ es, refLevels E (ref E none n) ⟨sc, .call⟩ c c.hierarchy = some (.ok es) → ∀ e ∈ es, EntryAlike E (withFiles E p ry rj) T K e) :
    (∃ e : Option Err, refLevels E (ref E none n) ⟨sc, .call⟩ c c.hierarchy = e.map .panic ∧
        refLevels E (ref E none n) ⟨sc, .call⟩ c c.hierarchy = e.map .panic) ∨
      ∃ es es', HierAlike E (withFiles E p ry rj) T K sc (OneOf E n es) es es' ∧ refLevels E (ref E none n) ⟨sc, .call⟩ c c.hierarchy = some (.ok es) ∧
        refLevels E (ref E none n) ⟨sc, .call⟩ c c.hierarchy = some (.ok es') := by
  match hr : refLevels E (ref E none n) ⟨sc, .call⟩ c c.hierarchy with
  | none => exact .inl ⟨none, rfl, rfl⟩
  | some (.panic e) => exact .inl ⟨some e, rfl, rfl⟩
  | some (.ok es) => exact .inr ⟨es, es, hierAlike hK (h es hr), rfl, rfl⟩

theorem refAnswer_unreadable {E : Env} {er : Err} (h : newCfg E.cfg E.configPath (E.readYaml E.configPath) = .panic er) (sc : Scope) (k : Key)
    (o : Entries) (n m : Nat) : refAnswer E sc k o n m = if k.root = "lookup_options".toList then pure none else Ans.fail er := by
  unfold refAnswer
  rw [h]
  rfl

theorem answers_keys {E : Env} {T : Str → Prop} {K : Referent → Prop} {sc : Scope} (hK : SelfContained E T K sc) {ry rj : Str → FileRes}
    (hc : ry E.configPath = E.readYaml E.configPath) (hy : ∀ p, SameFor K (E.readYaml p) (ry p)) (hj : ∀ p, SameFor K (E.readJson p) (rj p))
    {k : Key} (hk : K (.key k.root)) (o : Entries) (r : Res (Option Value)) :
    Answer (withFiles E E.configPath ry rj) sc k o r ↔ Answer E sc k o r := by
  have key : ∀ n m, refAnswer (withFiles E E.configPath ry rj) sc k o n m = refAnswer E sc k o n m := by
    intro n m
    cases hcfg : newCfg E.cfg E.configPath (E.readYaml E.configPath) with
    | panic er =>
      rw [refAnswer_unreadable hcfg]
      exact refAnswer_unreadable (E := withFiles E E.configPath ry rj) (by rw [← hc] at hcfg; exact hcfg) sc k o n m
    | ok c =>
      refine refAnswer_alike hK.shut (levels_cases hK.shut (fun es _ e _ f hf => ⟨fun _ => ?_, fun ls _ l _ => ?_⟩)) rfl hcfg (hc ▸ hcfg) hk o m
      · exact refHash_alike (fun _ _ => hy _) (fun _ _ => hj _) hK.yaml hK.json hK.hash
      · exact refHash_alike (fun _ _ => hy _) (fun _ _ => hj _) hK.yaml hK.json hK.hash
  simp only [Answer, key]

theorem answers_files {E : Env} {sc : Scope} {ry rj : Str → FileRes} {c : Cfg}
    (hcfg : newCfg E.cfg E.configPath (E.readYaml E.configPath) = .ok c) (hc : ry E.configPath = E.readYaml E.configPath)
    (hr : ∀ n es, refLevels E (ref E none n) ⟨sc, .call⟩ c c.hierarchy = some (.ok es) → ∀ p, ReadsAt E es p →
      ry p = E.readYaml p ∧ rj p = E.readJson p) (k : Key) (o : Entries) (r : Res (Option Value)) :
    Answer (withFiles E E.configPath ry rj) sc k o r ↔ Answer E sc k o r := by
  have hK := shut_everything E sc
  have key : ∀ n m, refAnswer (withFiles E E.configPath ry rj) sc k o n m = refAnswer E sc k o n m := by
    intro n m
    refine refAnswer_alike hK (levels_cases hK (fun es hes e he f hf => ⟨fun hl => ?_, fun ls hls l hl => ?_⟩)) rfl hcfg (hc ▸ hcfg) trivial o m
    · have hp : ∀ v, Entries.getS (refOpts e none) "path".toList = some v → ry (E.toStr v) = E.readYaml (E.toStr v) ∧ rj (E.toStr v) = E.readJson (E.toStr v) :=
        fun v hv => hr n es hes _ ⟨e, he, .inl ⟨hl, v, hv, rfl⟩⟩
      exact refHash_alike (fun v hv => (hp v hv).1 ▸ .same) (fun v hv => (hp v hv).2 ▸ .same) (fun _ _ _ v _ _ _ => withinV_any v)
        (fun _ _ _ v _ _ _ => withinV_any v) (fun _ _ _ _ v _ _ _ _ => withinV_any v)
    · have hp : ∀ v, Entries.getS (refOpts e (some l)) "path".toList = some v → ry (E.toStr v) = E.readYaml (E.toStr v) ∧ rj (E.toStr v) = E.readJson (E.toStr v) := by
        intro v hv
        rw [refOpts_path] at hv
        cases hv
        exact hr n es hes _ ⟨e, he, .inr ⟨ls, hls, l, hl, rfl⟩⟩
      exact refHash_alike (fun v hv => (hp v hv).1 ▸ .same) (fun v hv => (hp v hv).2 ▸ .same) (fun _ _ _ v _ _ _ => withinV_any v)
        (fun _ _ _ v _ _ _ => withinV_any v) (fun _ _ _ _ v _ _ _ _ => withinV_any v)
  simp only [Answer, key]

/-! ### Entries that have nothing -/

theorem refFirst_silent (xs ys : List (Ans (Option Value))) : refFirst (xs ++ pure none :: ys) = refFirst (xs ++ ys) := by
  induction xs with
  | nil => rfl
  | cons x xs ih =>
    simp only [List.cons_append, refFirst, ih]

theorem refFound_silent (xs ys : List (Ans (Option Value))) : refFound (xs ++ pure none :: ys) = refFound (xs ++ ys) := by
  induction xs with
  | nil =>
    show (refFound ys >>= fun vs => pure (none.toList ++ vs)) = refFound ys
    match refFound ys with
    | none => rfl
    | some (.ok _) => rfl
    | some (.panic _) => rfl
  | cons x xs ih => simp only [List.cons_append, refFound, ih]

/-- A source that has nothing does not matter, unless there is exactly one other source. -/
theorem refMerge_silent (st : Strategy) (xs ys : List (Ans (Option Value))) (h : (xs ++ ys).length ≠ 1) :
    refMerge st (xs ++ pure none :: ys) = refMerge st (xs ++ ys) := by
  cases st with
  | first => exact refFirst_silent xs ys
  | _ =>
    all_goals
      rcases Nat.lt_or_ge (xs ++ ys).length 2 with hl | hl
      · have h0 : (xs ++ ys).length = 0 := by omega
        rw [List.length_eq_zero_iff, List.append_eq_nil_iff] at h0
        rw [h0.1, h0.2]
        rfl
      · have two : ∀ (st : Strategy) (zs : List (Ans (Option Value))), 2 ≤ zs.length → st ≠ .first →
            refMerge st zs = (do let vs ← refFound zs; pure (refCombine st vs)) := by
          intro st zs hz hs
          match st, zs, hs, hz with
          | .unique, _ :: _ :: _, _, _ => rfl
          | .hash, _ :: _ :: _, _, _ => rfl
          | .deep _, _ :: _ :: _, _, _ => rfl
        rw [two _ _ hl (by simp), two _ _ (by simp at hl ⊢; omega) (by simp), refFound_silent]

theorem silent_nothing {E : Env} {K : Referent → Prop} {e : Entry} {l : Option Loc} (h : NothingIn E K e l) (r : Ref) (C : Ctx) {k : Key}
    (hk : K (.key k.root)) : refSource E r C k e l = pure none := by
  obtain ⟨n, hs, hf, hh, hn⟩ := h
  unfold refSource
  rw [hf]
  dsimp only
  rw [hh]
  show (match Entries.getS hs k.root with | some v => refInterp E r C true v | none => pure none) = _
  rw [hn _ hk]

theorem silent_entry {E : Env} {K : Referent → Prop} {e : Entry} (h : SilentFor E K e) (r : Ref) (C : Ctx) {k : Key} (hk : K (.key k.root))
    (st : Strategy) : refEntry E r C k st e = pure none := by
  have hat : ∀ l, ((∃ o r, l = .path o r false) ∨ NothingIn E K e (some l)) → refAt E r C k e l = pure none := by
    rintro l (⟨o, q, rfl⟩ | hl)
    · rfl
    · unfold refAt
      split
      · exact silent_nothing hl r C hk
      · exact silent_nothing hl r C hk
      · rfl
  unfold SilentFor at h
  unfold refEntry
  cases hl : e.locations with
  | none => rw [hl] at h; exact silent_nothing h r C hk
  | some ls =>
    rw [hl] at h
    have all : ls.map (refAt E r C k e) = ls.map (fun _ => pure none) := List.map_congr_left (fun l hl => hat l (h l hl))
    have hm : ∀ n, refMerge st (List.replicate n (pure none)) = pure none := by
      have hf : ∀ n, refFirst (List.replicate n (pure none)) = pure none := by
        intro n
        induction n with
        | zero => rfl
        | succ n ih => exact ih
      have hg : ∀ n, refFound (List.replicate n (pure none)) = pure [] := by
        intro n
        induction n with
        | zero => rfl
        | succ n ih =>
          show (refFound (List.replicate n (pure none)) >>= fun vs => pure (none.toList ++ vs)) = _
          rw [ih]
          rfl
      intro n
      match st, n with
      | .first, n => exact hf n
      | .unique, 0 => rfl
      | .unique, 1 => rfl
      | .unique, n + 2 => show (refFound (List.replicate (n + 2) (pure none)) >>= _) = _; rw [hg]; rfl
      | .hash, 0 => rfl
      | .hash, 1 => rfl
      | .hash, n + 2 => show (refFound (List.replicate (n + 2) (pure none)) >>= _) = _; rw [hg]; rfl
      | .deep _, 0 => rfl
      | .deep _, 1 => rfl
      | .deep _, n + 2 => show (refFound (List.replicate (n + 2) (pure none)) >>= _) = _; rw [hg]; rfl
    have hls : refMerge st (ls.map (refAt E r C k e)) = pure none := by
      rw [all, List.map_const']
      exact hm _
    split
    · rename_i h; cases h
    · rename_i l h1; cases h1; exact hat l (h l (List.mem_singleton.2 rfl))
    · rename_i ls' _ h1; cases h1; exact hls

theorem refResolveAll_append (E : Env) (r : Ref) (C : Ctx) (d : Entry) (es fs : List Entry) :
    refResolveAll E r C d (es ++ fs) = (do let a ← refResolveAll E r C d es; let b ← refResolveAll E r C d fs; pure (a ++ b)) := by
  induction es with
  | nil =>
    show _ = (refResolveAll E r C d fs >>= fun b => pure ([] ++ b))
    rw [List.nil_append]
    match refResolveAll E r C d fs with
    | none => rfl
    | some (.ok _) => rfl
    | some (.panic _) => rfl
  | cons e es ih =>
    simp only [List.cons_append, refResolveAll, ih]
    match refResolve E r C (some d) e with
    | none => rfl
    | some (.panic _) => rfl
    | some (.ok a) =>
      match refResolveAll E r C d es with
      | none => rfl
      | some (.panic _) => rfl
      | some (.ok b) =>
        match refResolveAll E r C d fs with
        | none => rfl
        | some (.panic _) => rfl
        | some (.ok c) => rfl

theorem silent_same {E : Env} {K : Referent → Prop} {p : Str} {e : Entry} (h : SilentFor E K e) (r : Ref) (C : Ctx) {k : Key} (hk : K (.key k.root))
    (st : Strategy) : refEntry (withFiles E p E.readYaml E.readJson) r C k st e = pure none :=
  silent_entry (E := withFiles E p E.readYaml E.readJson) h r C hk st

theorem silent_answers {E : Env} {T : Str → Prop} {K : Referent → Prop} {sc : Scope} (hK : Shut E T K sc) {p : Str} {c c' : Cfg}
    (same : ∀ e, EntryAlike E (withFiles E p E.readYaml E.readJson) T K e)
    (hc : newCfg E.cfg E.configPath (E.readYaml E.configPath) = .ok c) (hc' : newCfg E.cfg p (E.readYaml p) = .ok c')
    (hd : c'.defaults = c.defaults) (hdh : c'.defaultHierarchy = c.defaultHierarchy) {pre post : List Entry} {e : Entry}
    (hh : c.hierarchy = pre ++ post) (hh' : c'.hierarchy = pre ++ e :: post) (he : Silent E K sc c e) (h1 : (pre ++ post).length ≠ 1)
    {k : Key} (hk : K (.key k.root)) (o : Entries) (r : Res (Option Value)) :
    Answer (withFiles E p E.readYaml E.readJson) sc k o r ↔ Answer E sc k o r := by
  obtain ⟨n0, d, x, hd0, hx0, hs⟩ := he
  have key : ∀ n m, n0 ≤ n → refAnswer (withFiles E p E.readYaml E.readJson) sc k o n m = refAnswer E sc k o n m := by
    intro n m hn
    have hd1 := refResolve_le (ref_mono E none hn) ⟨sc, .call⟩ none c.defaults _ hd0
    have hx1 := refResolve_le (ref_mono E none hn) ⟨sc, .call⟩ (some d) e _ hx0
    refine refAnswer_alike hK ?_ ?_ hc hc' hk o m
    · have hl : refLevels E (ref E none n) ⟨sc, .call⟩ c c.hierarchy = refResolveAll E (ref E none n) ⟨sc, .call⟩ d (pre ++ post) := by
        unfold refLevels
        rw [hd1, hh]
        rfl
      have hl' : refLevels E (ref E none n) ⟨sc, .call⟩ c' c'.hierarchy = refResolveAll E (ref E none n) ⟨sc, .call⟩ d (pre ++ e :: post) := by
        unfold refLevels
        rw [hd, hd1, hh']
        rfl
      rw [hl, hl', refResolveAll_append, refResolveAll_append, refResolveAll, hx1]
      have len : ∀ (es : List Entry) fs, refResolveAll E (ref E none n) ⟨sc, .call⟩ d es = some (.ok fs) → fs.length = es.length := by
        intro es
        induction es with
        | nil => intro fs h; cases h; rfl
        | cons a as ih =>
          intro fs h
          rw [refResolveAll] at h
          match h2 : refResolve E (ref E none n) ⟨sc, .call⟩ (some d) a, h with
          | some (.ok b), h =>
            match h3 : refResolveAll E (ref E none n) ⟨sc, .call⟩ d as, h with
            | some (.ok bs), h =>
              cases h
              simp [ih bs h3]
      match ha : refResolveAll E (ref E none n) ⟨sc, .call⟩ d pre with
      | none => exact .inl ⟨none, rfl, rfl⟩
      | some (.panic er) => exact .inl ⟨some er, rfl, rfl⟩
      | some (.ok a) =>
        match hb : refResolveAll E (ref E none n) ⟨sc, .call⟩ d post with
        | none => exact .inl ⟨none, rfl, rfl⟩
        | some (.panic er) => exact .inl ⟨some er, rfl, rfl⟩
        | some (.ok b) =>
          refine .inr ⟨a ++ b, a ++ x :: b, ?_, rfl, rfl⟩
          intro r r' C k st hP hr hC hk
          have hm := hierAlike hK (es := a ++ b) (fun e _ => same e) r r' C k st hP hr hC hk
          have hq : refHierarchy (withFiles E p E.readYaml E.readJson) r' C k st (a ++ x :: b) =
              refHierarchy (withFiles E p E.readYaml E.readJson) r' C k st (a ++ b) := by
            unfold refHierarchy
            rw [List.map_append, List.map_append, List.map_cons, silent_same hs r' C hk st, refMerge_silent]
            rw [← List.map_append, List.length_map, List.length_append, len _ _ ha, len _ _ hb, ← List.length_append]
            exact h1
          rw [hq]
          exact hm
    · unfold refLevels
      rw [hd, hdh]
  constructor
  · rintro ⟨n, m, h⟩
    have := refAnswer_mono (Nat.le_max_left n n0) (Nat.le_refl m) _ h
    rw [key _ _ (Nat.le_max_right n n0)] at this
    exact ⟨_, _, this⟩
  · rintro ⟨n, m, h⟩
    have := refAnswer_mono (Nat.le_max_left n n0) (Nat.le_refl m) _ h
    rw [← key _ _ (Nat.le_max_right n n0)] at this
    exact ⟨_, _, this⟩

theorem answers_silent {E : Env} {sc : Scope} {p : Str} {c c' : Cfg}
    (hc : newCfg E.cfg E.configPath (E.readYaml E.configPath) = .ok c) (hc' : newCfg E.cfg p (E.readYaml p) = .ok c')
    (hd : c'.defaults = c.defaults) (hdh : c'.defaultHierarchy = c.defaultHierarchy) {pre post : List Entry} {e : Entry}
    (hh : c.hierarchy = pre ++ post) (hh' : c'.hierarchy = pre ++ e :: post) (he : Silent E Everything sc c e)
    (h1 : (pre ++ post).length ≠ 1) (k : Key) (o : Entries) (r : Res (Option Value)) :
    Answer (withFiles E p E.readYaml E.readJson) sc k o r ↔ Answer E sc k o r := by
  refine silent_answers (shut_everything E sc) (fun e n _ => ⟨fun _ => ?_, fun _ _ _ _ => ?_⟩) hc hc' hd hdh hh hh' he h1 trivial o r
  · exact refHash_alike (fun _ _ => .same) (fun _ _ => .same) (fun _ _ _ v _ _ _ => withinV_any v)
      (fun _ _ _ v _ _ _ => withinV_any v) (fun _ _ _ _ v _ _ _ _ => withinV_any v)
  · exact refHash_alike (fun _ _ => .same) (fun _ _ => .same) (fun _ _ _ v _ _ _ => withinV_any v)
      (fun _ _ _ v _ _ _ => withinV_any v) (fun _ _ _ _ v _ _ _ _ => withinV_any v)

theorem answers_others {E : Env} {T : Str → Prop} {K : Referent → Prop} {sc : Scope} (hK : SelfContained E T K sc) {p : Str} {c c' : Cfg}
    (hc : newCfg E.cfg E.configPath (E.readYaml E.configPath) = .ok c) (hc' : newCfg E.cfg p (E.readYaml p) = .ok c')
    (hd : c'.defaults = c.defaults) (hdh : c'.defaultHierarchy = c.defaultHierarchy) {pre post : List Entry} {e : Entry}
    (hh : c.hierarchy = pre ++ post) (hh' : c'.hierarchy = pre ++ e :: post) (he : Silent E K sc c e)
    (h1 : (pre ++ post).length ≠ 1) {k : Key} (hk : K (.key k.root)) (o : Entries) (r : Res (Option Value)) :
    Answer (withFiles E p E.readYaml E.readJson) sc k o r ↔ Answer E sc k o r := by
  refine silent_answers hK.shut (fun e n _ => ⟨fun _ => ?_, fun _ _ _ _ => ?_⟩) hc hc' hd hdh hh hh' he h1 hk o r
  · exact refHash_alike (fun _ _ => .same) (fun _ _ => .same) hK.yaml hK.json hK.hash
  · exact refHash_alike (fun _ _ => .same) (fun _ _ => .same) hK.yaml hK.json hK.hash

/-! ### Sessions -/

theorem statelessEnv_files {E : Env} (he : StatelessEnv E) (p : Str) (ry rj : Str → FileRes) : StatelessEnv (withFiles E p ry rj) :=
  ⟨he.top, he.mux, he.fns, he.plugins⟩

/-- C88: what a lookup of a key gives depends only on that key, and on the keys and variables that it refers to, directly or not.
Whatever else the files contain, and whatever it is changed to, it gives the same, in all sessions. -/
theorem C88_keys {E : Env} (he : StatelessEnv E) (hE : Readable E) {T : Str → Prop} {K : Referent → Prop} {sc : Scope} (hK : SelfContained E T K sc)
    {ry rj : Str → FileRes} (hc : ry E.configPath = E.readYaml E.configPath) (hy : ∀ p, SameFor K (E.readYaml p) (ry p))
    (hj : ∀ p, SameFor K (E.readJson p) (rj p)) {s s' : St} (hs : Session E s) (hs' : Session (withFiles E E.configPath ry rj) s')
    (ex ex' : Option ExplOpts) {k : Key} (hk : K (.key k.root)) (o : Entries) (r : Res (Option Value)) :
    Gives (withFiles E E.configPath ry rj) (nextInvocation s' sc ex') k o r ↔ Gives E (nextInvocation s sc ex) k o r := by
  have hE' : Readable (withFiles E E.configPath ry rj) := let ⟨c, h⟩ := hE; ⟨c, by rw [← hc] at h; exact h⟩
  rw [C81_session _ (statelessEnv_files he ..) hE' hs', C81_session _ he hE hs]
  exact answers_keys hK hc hy hj hk o r

/-- C88: what lookups give depends only on the configuration and the files that the entries of its hierarchy lead to. Whatever other
files contain, and whatever that is changed to, all lookups give the same, in all sessions. -/
theorem C88_files {E : Env} (he : StatelessEnv E) {sc : Scope} {ry rj : Str → FileRes} {c : Cfg}
    (hcfg : newCfg E.cfg E.configPath (E.readYaml E.configPath) = .ok c) (hc : ry E.configPath = E.readYaml E.configPath)
    (hr : ∀ n es, refLevels E (ref E none n) ⟨sc, .call⟩ c c.hierarchy = some (.ok es) → ∀ p, ReadsAt E es p →
      ry p = E.readYaml p ∧ rj p = E.readJson p) {s s' : St} (hs : Session E s) (hs' : Session (withFiles E E.configPath ry rj) s')
    (ex ex' : Option ExplOpts) (k : Key) (o : Entries) (r : Res (Option Value)) :
    Gives (withFiles E E.configPath ry rj) (nextInvocation s' sc ex') k o r ↔ Gives E (nextInvocation s sc ex) k o r := by
  have hE' : Readable (withFiles E E.configPath ry rj) := ⟨c, by rw [← hc] at hcfg; exact hcfg⟩
  rw [C81_session _ (statelessEnv_files he ..) hE' hs', C81_session _ he ⟨c, hcfg⟩ hs]
  exact answers_files hcfg hc hr k o r

/-- C87: another level in the hierarchy that has nothing, because there are no files or no keys in them, changes nothing that lookups
give, wherever it is, if there are no other levels or at least two. Missing: hierarchies with one other level, for which it is
false (`C87_false`). -/
theorem C87_silent_partial {E : Env} (he : StatelessEnv E) {sc : Scope} {p : Str} {c c' : Cfg}
    (hc : newCfg E.cfg E.configPath (E.readYaml E.configPath) = .ok c) (hc' : newCfg E.cfg p (E.readYaml p) = .ok c')
    (hd : c'.defaults = c.defaults) (hdh : c'.defaultHierarchy = c.defaultHierarchy) {pre post : List Entry} {e : Entry}
    (hh : c.hierarchy = pre ++ post) (hh' : c'.hierarchy = pre ++ e :: post) (hq : Silent E Everything sc c e)
    (h1 : (pre ++ post).length ≠ 1) {s s' : St} (hs : Session E s) (hs' : Session (withFiles E p E.readYaml E.readJson) s')
    (ex ex' : Option ExplOpts) (k : Key) (o : Entries) (r : Res (Option Value)) :
    Gives (withFiles E p E.readYaml E.readJson) (nextInvocation s' sc ex') k o r ↔ Gives E (nextInvocation s sc ex) k o r := by
  rw [C81_session _ (statelessEnv_files he ..) ⟨c', hc'⟩ hs', C81_session _ he ⟨c, hc⟩ hs]
  exact answers_silent hc hc' hd hdh hh hh' hq h1 k o r

/-- C87 for a level that has data, but none for a key, for those that it refers to, and for the lookup options. -/
theorem C87_others_partial {E : Env} (he : StatelessEnv E) {T : Str → Prop} {K : Referent → Prop} {sc : Scope} (hK : SelfContained E T K sc)
    {p : Str} {c c' : Cfg} (hc : newCfg E.cfg E.configPath (E.readYaml E.configPath) = .ok c) (hc' : newCfg E.cfg p (E.readYaml p) = .ok c')
    (hd : c'.defaults = c.defaults) (hdh : c'.defaultHierarchy = c.defaultHierarchy) {pre post : List Entry} {e : Entry}
    (hh : c.hierarchy = pre ++ post) (hh' : c'.hierarchy = pre ++ e :: post) (hq : Silent E K sc c e)
    (h1 : (pre ++ post).length ≠ 1) {s s' : St} (hs : Session E s) (hs' : Session (withFiles E p E.readYaml E.readJson) s')
    (ex ex' : Option ExplOpts) {k : Key} (hk : K (.key k.root)) (o : Entries) (r : Res (Option Value)) :
    Gives (withFiles E p E.readYaml E.readJson) (nextInvocation s' sc ex') k o r ↔ Gives E (nextInvocation s sc ex) k o r := by
  rw [C81_session _ (statelessEnv_files he ..) ⟨c', hc'⟩ hs', C81_session _ he ⟨c, hc⟩ hs]
  exact answers_others hK hc hc' hd hdh hh hh' hq h1 hk o r

/-! ### Concrete cases -/

namespace Separate87

/-- Three configurations: `/h/hiera.yaml` with the given levels, `/h/more.yaml` with a level more, for which there is no file, and
`/h/other.yaml` with one that has other keys. -/
def world (levels : List Value) : Env := mk (cfg levels)
  [("/h/more.yaml".toList, cfg (entry "none" "none.yaml" :: levels)), ("/h/other.yaml".toList, cfg (entry "o" "o.yaml" :: levels)),
    ("/h/data/a.yaml".toList, .map [(s "x", s "%{lookup('y')} of %{v}")]), ("/h/data/b.yaml".toList, .map [(s "y", s "text")]),
    ("/h/data/o.yaml".toList, .map [(s "z", s "%{lookup('z')}")])]

def scope : Scope := .map [(s "v", s "nine")]

def levels : List Value := [entry "a" "a.yaml", entry "b" "b.yaml"]

theorem stateless (ls : List Value) : StatelessEnv (world ls) where
  top := .inl rfl
  mux := fun _ _ h => nomatch h
  fns := fun _ _ h => nomatch h
  plugins := fun _ _ _ h => nomatch h

/-- The configurations, compared. -/
def compare (E : Env) (sc : Scope) (p : Str) (ok : Entry → Bool) : Bool :=
  match newCfg E.cfg E.configPath (E.readYaml E.configPath), newCfg E.cfg p (E.readYaml p) with
  | .ok c, .ok c' =>
    match c'.hierarchy with
    | [] => false
    | e :: es => decide (c'.defaults = c.defaults) && decide (c'.defaultHierarchy = c.defaultHierarchy) && decide (es = c.hierarchy) &&
      match refResolve E (ref E none 1) ⟨sc, .call⟩ none c.defaults with
      | some (.ok d) => match refResolve E (ref E none 1) ⟨sc, .call⟩ (some d) e with
        | some (.ok x) => ok x
        | _ => false
      | _ => false
  | _, _ => false

theorem compare_spec {E : Env} {sc : Scope} {p : Str} {ok : Entry → Bool} (h : compare E sc p ok = true) : ∃ c c' e,
    newCfg E.cfg E.configPath (E.readYaml E.configPath) = .ok c ∧ newCfg E.cfg p (E.readYaml p) = .ok c' ∧ c'.defaults = c.defaults ∧
    c'.defaultHierarchy = c.defaultHierarchy ∧ c'.hierarchy = e :: c.hierarchy ∧ ∃ n d x,
      refResolve E (ref E none n) ⟨sc, .call⟩ none c.defaults = some (.ok d) ∧
      refResolve E (ref E none n) ⟨sc, .call⟩ (some d) e = some (.ok x) ∧ ok x = true := by
  unfold compare at h
  split at h
  · rename_i c c' hc hc'
    split at h
    · cases h
    · rename_i e es he
      simp only [Bool.and_eq_true, decide_eq_true_eq] at h
      obtain ⟨⟨⟨h1, h2⟩, h3⟩, h4⟩ := h
      split at h4
      · rename_i d hd
        split at h4
        · rename_i x hx
          exact ⟨c, c', e, hc, hc', h1, h2, h3 ▸ he, 1, d, x, hd, hx, h4⟩
        · cases h4
      · cases h4
  · cases h

/-- All locations of an entry are paths without a file. -/
def absent (e : Entry) : Bool :=
  match e.locations with
  | none => false
  | some ls => ls.all (fun l => match l with | .path _ _ ex => !ex | _ => false)

theorem absent_silent {E : Env} {K : Referent → Prop} {e : Entry} (h : absent e = true) : SilentFor E K e := by
  unfold absent at h
  unfold SilentFor
  cases hl : e.locations with
  | none => rw [hl] at h; cases h
  | some ls =>
    rw [hl] at h
    intro l hl
    have := List.all_eq_true.1 h l hl
    revert this
    rcases l with ⟨o, r, _ | _⟩ | _ <;> intro this <;> first | exact .inl ⟨_, _, rfl⟩ | cases this

end Separate87

open Separate87 in
/-- Not vacuous: two levels and one without a file. -/
example : ∃ c c' e, newCfg (world levels).cfg (world levels).configPath ((world levels).readYaml (world levels).configPath) = .ok c ∧
    newCfg (world levels).cfg "/h/more.yaml".toList ((world levels).readYaml "/h/more.yaml".toList) = .ok c' ∧ c'.defaults = c.defaults ∧
    c'.defaultHierarchy = c.defaultHierarchy ∧ c'.hierarchy = e :: c.hierarchy ∧ Silent (world levels) Everything scope c e ∧
    c.hierarchy.length = 2 := by
  have h : compare (world levels) scope "/h/more.yaml".toList absent = true := by decide +kernel
  have hl : (match newCfg (world levels).cfg (world levels).configPath ((world levels).readYaml (world levels).configPath) with
    | .ok c => c.hierarchy.length
    | .panic _ => 0) = 2 := by decide +kernel
  obtain ⟨c, c', e, hc, hc', h1, h2, h3, n, d, x, hd, hx, ha⟩ := compare_spec h
  rw [hc] at hl
  exact ⟨c, c', e, hc, hc', h1, h2, h3, ⟨n, d, x, hd, hx, absent_silent ha⟩, hl⟩

open Separate87 in
/-- C87 is false for hierarchies with one other level: with it alone `unique` leaves a value that is no array as it is, and with a
level more, though there is nothing in it, it becomes an array. -/
theorem C87_false : ∃ (E : Env) (sc : Scope) (p : Str) (c c' : Cfg) (e : Entry) (k : Key) (o : Entries), StatelessEnv E ∧
    newCfg E.cfg E.configPath (E.readYaml E.configPath) = .ok c ∧ newCfg E.cfg p (E.readYaml p) = .ok c' ∧ c'.defaults = c.defaults ∧
    c'.defaultHierarchy = c.defaultHierarchy ∧ c'.hierarchy = e :: c.hierarchy ∧ Silent E Everything sc c e ∧
    Gives E (newInvocation sc none) k o (.ok (some (s "text"))) ∧
    Gives (withFiles E p E.readYaml E.readJson) (newInvocation sc none) k o (.ok (some (.arr [s "text"]))) := by
  have h : compare (world [entry "b" "b.yaml"]) scope "/h/more.yaml".toList absent = true := by decide +kernel
  have ha : ((eval (world [entry "b" "b.yaml"]) 6).lookup ⟨"y".toList, [.name "y".toList]⟩ [(s "merge", s "unique")] (newInvocation scope none)).map (·.1) =
    some (.ok (some (s "text"))) := by decide +kernel
  have hb : ((eval (withFiles (world [entry "b" "b.yaml"]) "/h/more.yaml".toList (world [entry "b" "b.yaml"]).readYaml (world [entry "b" "b.yaml"]).readJson) 6).lookup
      ⟨"y".toList, [.name "y".toList]⟩ [(s "merge", s "unique")] (newInvocation scope none)).map (·.1) = some (.ok (some (.arr [s "text"]))) := by decide +kernel
  obtain ⟨c, c', e, hc, hc', h1, h2, h3, n, d, x, hd, hx, hab⟩ := compare_spec h
  obtain ⟨⟨r, t⟩, ha, rfl⟩ := Option.map_eq_some_iff.1 ha
  obtain ⟨⟨r', t'⟩, hb, hr'⟩ := Option.map_eq_some_iff.1 hb
  dsimp only at hr'
  subst hr'
  exact ⟨_, _, _, c, c', e, _, _, stateless _, hc, hc', h1, h2, h3, ⟨n, d, x, hd, hx, absent_silent hab⟩, ⟨6, t, ha⟩, ⟨6, t', hb⟩⟩

namespace Separate88
open Acyclic59 (T world text inert data vars tidy_text tidy_plain no_refs text_refers)

/-- The keys `x` and `y`, the lookup options, and the variable `v`. -/
def K : Referent → Prop
  | .key r => r ∈ ["x".toList, "y".toList, "lookup_options".toList]
  | .var n => n = "v".toList

theorem refersIn_plain {x : Str} (h : T x) : RefersIn T K x := ⟨tidy_plain h, fun _ _ _ _ hs he _ _ => (no_refs h hs he).elim⟩

theorem refersIn_text : RefersIn T K text := by
  refine ⟨tidy_text, fun ts e x i hts he hx h => ?_⟩
  rcases text_refers hts he hx h with rfl | rfl
  · simp [K]
  · rfl

theorem selfContained : SelfContained world T K Acyclic59.scope where
  inert := inert
  text := fun v h => by cases v <;> first | exact clean_str.1 h | exact inert.nil
  options := by simp [K]
  again := by
    have hk : ∀ r ∈ ["x".toList, "y".toList, "lookup_options".toList], newKey r = .ok ⟨r, [.name r]⟩ := by decide +kernel
    intro r k hr h
    rw [hk r hr] at h
    cases h
    exact hr
  vars := fun n v _ h x hx => refersIn_plain (vars h x hx)
  yaml := by
    intro p es q v h _ hg
    rcases data (.yaml h) hg with h | ⟨-, rfl⟩
    · exact fun x hx => refersIn_plain (h x hx)
    · intro x hx
      cases hx
      exact refersIn_text
  json := fun _ _ _ _ h => nomatch h
  hash := fun _ _ _ _ _ h => by obtain ⟨n, h | ⟨p, h⟩⟩ := h <;> cases h
  dig := fun _ _ _ h => by obtain ⟨n, h | ⟨p, h⟩⟩ := h <;> cases h
  env := by
    intro q v _ h x hx
    unfold envLookup at h
    split at h
    · cases h
      cases hx with
      | key h => cases h
      | val h => cases h
    · split at h <;> cases h
  scope := fun q v _ h x hx => refersIn_plain (vars h x hx)
  custom := fun f o q h => by rcases h with ⟨n, h | ⟨p, h⟩⟩ | h | ⟨fs, h, _⟩ <;> cases h
  conv := fun _ _ _ _ h _ e => by cases e; exact h

/-- Files in which `z` has become a value that refers to itself. -/
def changed (p : Str) : FileRes :=
  if p = "/h/data/a.yaml".toList then .value (.map [(s "x", .str text), (s "z", s "%{lookup('z')}")]) else world.readYaml p

theorem same (p : Str) : SameFor K (world.readYaml p) (changed p) := by
  by_cases hp : p = "/h/data/a.yaml".toList
  · subst hp
    have h : world.readYaml "/h/data/a.yaml".toList = .value (.map [(s "x", .str text), (s "z", .arr [s "plain"])]) := by rfl
    rw [h]
    refine .maps (fun q hq => ?_)
    simp only [K, List.mem_cons, List.mem_nil_iff, or_false] at hq
    rcases hq with rfl | rfl | rfl <;> rfl
  · rw [changed, if_neg hp]
    exact .same

theorem stateless : StatelessEnv world where
  top := .inl rfl
  mux := fun _ _ h => nomatch h
  fns := fun _ _ h => nomatch h
  plugins := fun _ _ _ h => nomatch h

theorem readable : Readable world := by
  have h : (match newCfg world.cfg world.configPath (world.readYaml world.configPath) with | .ok _ => true | .panic _ => false) = true := by
    decide +kernel
  split at h
  · exact ⟨_, by assumption⟩
  · cases h

/-- So the lookup of `x` gives the same: though one of `z` does not end there, and gives a value here. -/
example : Gives (withFiles world world.configPath changed world.readJson) (newInvocation Acyclic59.scope none) ⟨"x".toList, [.name "x".toList]⟩ []
    (.ok (some (s "text of nine"))) := by
  have h : ((eval world 8).lookup ⟨"x".toList, [.name "x".toList]⟩ [] (newInvocation Acyclic59.scope none)).map (·.1) =
      some (.ok (some (s "text of nine"))) := by decide +kernel
  obtain ⟨⟨r, t⟩, ha, rfl⟩ := Option.map_eq_some_iff.1 h
  exact (C88_keys (ry := changed) stateless readable selfContained rfl same (fun _ => .same) (.start Acyclic59.scope none) (.start Acyclic59.scope none) none none
    (k := ⟨"x".toList, [.name "x".toList]⟩) (by simp [K, Key.root]) [] _).2 ⟨8, t, ha⟩

/-- The paths of the two levels. -/
theorem reads {c : Cfg} (hc : newCfg world.cfg world.configPath (world.readYaml world.configPath) = .ok c) {n : Nat} {es : List Entry}
    (h : refLevels world (ref world none n) ⟨.map [], .call⟩ c c.hierarchy = some (.ok es)) {p : Str} (hp : ReadsAt world es p) :
    p = "/h/data/a.yaml".toList ∨ p = "/h/data/b.yaml".toList := by
  have hd : (match newCfg world.cfg world.configPath (world.readYaml world.configPath) with
    | .ok c => match refLevels world (ref world none 1) ⟨.map [], .call⟩ c c.hierarchy with
      | some (.ok es) => es.all (fun e => match e.locations with
        | none => false
        | some ls => ls.all (fun l => decide (l.resolved = "/h/data/a.yaml".toList ∨ l.resolved = "/h/data/b.yaml".toList)))
      | _ => false
    | .panic _ => false) = true := by decide +kernel
  rw [hc] at hd
  dsimp only at hd
  split at hd
  · rename_i es' he
    have h1 := refLevels_le (ref_mono world none (Nat.le_max_left n 1)) ⟨.map [], .call⟩ c c.hierarchy _ h
    have h2 := refLevels_le (ref_mono world none (Nat.le_max_right n 1)) ⟨.map [], .call⟩ c c.hierarchy _ he
    rw [h1] at h2
    cases h2
    obtain ⟨e, hm, hp⟩ := hp
    have := List.all_eq_true.1 hd e hm
    rcases hp with ⟨hl, -⟩ | ⟨ls, hl, l, hll, rfl⟩
    · rw [hl] at this; cases this
    · rw [hl] at this
      exact of_decide_eq_true (List.all_eq_true.1 this l hll)
  · cases hd

/-- Other contents of all other files change nothing. -/
example (ry : Str → FileRes) (hc : ry "/h/hiera.yaml".toList = world.readYaml "/h/hiera.yaml".toList)
    (ha : ry "/h/data/a.yaml".toList = world.readYaml "/h/data/a.yaml".toList) (hb : ry "/h/data/b.yaml".toList = world.readYaml "/h/data/b.yaml".toList)
    (k : Key) (o : Entries) (r : Res (Option Value)) :
    Gives (withFiles world world.configPath ry world.readJson) (newInvocation (.map []) none) k o r ↔ Gives world (newInvocation (.map []) none) k o r := by
  obtain ⟨c, h⟩ := readable
  refine C88_files stateless h hc (fun n es hes p hp => ⟨?_, rfl⟩) (.start (.map []) none) (.start (.map []) none) none none k o r
  rcases reads h hes hp with rfl | rfl
  · exact ha
  · exact hb

open Separate87 (levels compare compare_spec)

/-- The text of `x` is that of the other world. -/
theorem text_eq : s "%{lookup('y')} of %{v}" = .str text := rfl

theorem files_within {p : Str} {es : Entries} {q : Str} {v : Value} (h : (Separate87.world levels).readYaml p = .value (.map es)) (hq : K (.key q))
    (hg : Entries.getS es q = some v) : WithinV T K v := by
  have key : ∀ w ∈ [cfg levels, cfg (entry "none" "none.yaml" :: levels), cfg (entry "o" "o.yaml" :: levels), .map [(s "x", .str text)],
      .map [(s "y", s "text")], .map [(s "z", s "%{lookup('z')}")]], ∀ q ∈ ["x".toList, "y".toList, "lookup_options".toList],
      (match w with
        | .map es => match Entries.getS es q with
          | none => true
          | some v => decide (v = .str text) || decide (v = s "text")
        | _ => true) = true := by decide +kernel
  have hm : Value.map es ∈ [cfg levels, cfg (entry "none" "none.yaml" :: levels), cfg (entry "o" "o.yaml" :: levels), .map [(s "x", .str text)],
      .map [(s "y", s "text")], .map [(s "z", s "%{lookup('z')}")]] := by
    simp only [Separate87.world, mk] at h
    split at h
    · injection h with h; rw [← h]; simp
    · split at h
      · rename_i v hv
        injection h with h
        subst h
        simp only [assoc] at hv
        (repeat' split at hv) <;> (cases hv; first | done | simp [text_eq, cfg])
      · cases h
  have := key _ hm q hq
  dsimp only at this
  rw [hg] at this
  simp only [Bool.or_eq_true, decide_eq_true_eq] at this
  rcases this with rfl | rfl
  · intro x hx; cases hx; exact refersIn_text
  · intro x hx; cases hx; exact refersIn_plain (by decide)

theorem selfContained87 : SelfContained (Separate87.world levels) T K Acyclic59.scope where
  inert := inert
  text := fun v h => by cases v <;> first | exact clean_str.1 h | exact inert.nil
  options := selfContained.options
  again := selfContained.again
  vars := selfContained.vars
  yaml := fun _ _ _ _ h hq hg => files_within h hq hg
  json := fun _ _ _ _ h => nomatch h
  hash := fun _ _ _ _ _ h => by obtain ⟨n, h | ⟨p, h⟩⟩ := h <;> cases h
  dig := fun _ _ _ h => by obtain ⟨n, h | ⟨p, h⟩⟩ := h <;> cases h
  env := selfContained.env
  scope := selfContained.scope
  custom := fun f o q h => by rcases h with ⟨n, h | ⟨p, h⟩⟩ | h | ⟨fs, h, _⟩ <;> cases h
  conv := fun _ _ _ _ h _ e => by cases e; exact h

/-- An entry with one location, whose data has none of the keys. -/
def others (e : Entry) : Bool :=
  match e.locations, e.function with
  | some [l], some (.dataHash, n) => match refHash (Separate87.world levels) e n (refOpts e (some l)) with
    | .ok h => ["x".toList, "y".toList, "lookup_options".toList].all (fun q => (Entries.getS h q).isNone)
    | .panic _ => false
  | _, _ => false

theorem others_silent {e : Entry} (h : others e = true) : SilentFor (Separate87.world levels) K e := by
  unfold others at h
  split at h
  · rename_i l n hl hf
    split at h
    · rename_i hs hh
      unfold SilentFor
      rw [hl]
      intro x hx
      cases List.mem_singleton.1 hx
      exact .inr ⟨n, hs, hf, hh, fun q hq => by simpa using List.all_eq_true.1 h q hq⟩
    · cases h
  · cases h

/-- A level that has only `z`, which refers to itself: `x` is the same. -/
example : Gives (withFiles (Separate87.world levels) "/h/other.yaml".toList (Separate87.world levels).readYaml (Separate87.world levels).readJson)
    (newInvocation Acyclic59.scope none) ⟨"x".toList, [.name "x".toList]⟩ [] (.ok (some (s "text of nine"))) := by
  have hq : compare (Separate87.world levels) Acyclic59.scope "/h/other.yaml".toList others = true := by decide +kernel
  have hl : (match newCfg (Separate87.world levels).cfg (Separate87.world levels).configPath ((Separate87.world levels).readYaml (Separate87.world levels).configPath) with
    | .ok c => c.hierarchy.length
    | .panic _ => 0) = 2 := by decide +kernel
  have h : ((eval (Separate87.world levels) 8).lookup ⟨"x".toList, [.name "x".toList]⟩ [] (newInvocation Acyclic59.scope none)).map (·.1) =
      some (.ok (some (s "text of nine"))) := by decide +kernel
  obtain ⟨⟨r, t⟩, ha, rfl⟩ := Option.map_eq_some_iff.1 h
  obtain ⟨c, c', e, hc, hc', h1, h2, h3, n, d, x, hd, hx, ho⟩ := compare_spec hq
  rw [hc] at hl
  dsimp only at hl
  exact (C87_others_partial (Separate87.stateless _) selfContained87 hc hc' h1 h2 (pre := []) rfl h3 ⟨n, d, x, hd, hx, others_silent ho⟩
    (by rw [List.nil_append, hl]; decide) (.start Acyclic59.scope none) (.start Acyclic59.scope none) none none (k := ⟨"x".toList, [.name "x".toList]⟩)
    (by simp [K, Key.root]) [] _).2 ⟨8, t, ha⟩

end Separate88

end Hiera
