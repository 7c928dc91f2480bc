/- Hierarchies in which the same sources are grouped in another way. -/
import Verif.Lemmas.Grouped
import Verif.Props.Separate
import Verif.Lemmas.Ordinary

set_option autoImplicit false

namespace Hiera
open Spec Value

/-! ### Sources -/

theorem ans_bind_assoc {α β γ : Type} (x : Ans α) (f : α → Ans β) (g : β → Ans γ) : (x >>= f >>= g) = (x >>= fun a => f a >>= g) := by
  match x with
  | none => rfl
  | some (.ok _) => rfl
  | some (.panic _) => rfl

theorem ans_bind_pure {α : Type} (x : Ans α) : (x >>= pure) = x := by
  match x with
  | none => rfl
  | some (.ok _) => rfl
  | some (.panic _) => rfl

theorem refFound_append (xs ys : List (Ans (Option Value))) :
    refFound (xs ++ ys) = (refFound xs >>= fun a => refFound ys >>= fun b => pure (a ++ b)) := by
  induction xs with
  | nil =>
    show _ = (refFound ys >>= fun b => pure ([] ++ b))
    simp only [List.nil_append]
    exact (ans_bind_pure _).symm
  | cons x xs ih =>
    simp only [List.cons_append, refFound, ih, ans_bind_assoc]
    congr 1
    funext v
    congr 1
    funext a
    show _ = (refFound ys >>= fun b => pure (v.toList ++ a ++ b))
    congr 1
    funext b
    show pure (v.toList ++ (a ++ b)) = (pure _ : Ans (List Value))
    rw [List.append_assoc]

theorem refFirst_append (xs ys : List (Ans (Option Value))) :
    refFirst (xs ++ ys) = (refFirst xs >>= fun a => match a with | some v => pure (some v) | none => refFirst ys) := by
  induction xs with
  | nil => rfl
  | cons x xs ih =>
    simp only [List.cons_append, refFirst, ih, ans_bind_assoc]
    congr 1
    funext v
    cases v <;> rfl

/-- A merge of any number of sources but one. -/
theorem refMerge_found {st : Strategy} (hst : st ≠ .first) {xs : List (Ans (Option Value))} (h : xs.length ≠ 1) :
    refMerge st xs = (refFound xs >>= fun vs => pure (refCombine st vs)) := by
  match st, xs, hst, h with
  | .unique, [], _, _ => rfl
  | .hash, [], _, _ => rfl
  | .deep _, [], _, _ => rfl
  | .unique, _ :: _ :: _, _, _ => rfl
  | .hash, _ :: _ :: _, _, _ => rfl
  | .deep _, _ :: _ :: _, _, _ => rfl

section
variable (E : Env) (r : Ref) (C : Ctx) (k : Key)

theorem refFirst_one (x : Ans (Option Value)) : refFirst [x] = x := by
  rw [refFirst]
  match x with
  | none => rfl
  | some (.ok none) => rfl
  | some (.ok (some _)) => rfl
  | some (.panic _) => rfl

theorem entry_first (e : Entry) : refEntry E r C k .first e = refFirst (sourcesOf E r C k e) := by
  unfold refEntry sourcesOf
  cases e.locations with
  | none => exact (refFirst_one _).symm
  | some ls =>
    match ls with
    | [] => rfl
    | [l] => exact (refFirst_one _).symm
    | _ :: _ :: _ => rfl

theorem hierarchy_first (es : List Entry) :
    refFirst (es.map (refEntry E r C k .first)) = refFirst (es.flatMap (sourcesOf E r C k)) := by
  induction es with
  | nil => rfl
  | cons e es ih =>
    rw [List.flatMap_cons, refFirst_append, ← ih, ← entry_first]
    rfl

/-- What an entry counts for. -/
theorem entry_counts {st : Strategy} (hst : st ≠ .first) (e : Entry) : ∃ part : List Value → Option Value,
    refEntry E r C k st e = (refFound (sourcesOf E r C k e) >>= fun g => pure (part g)) ∧
    ∀ g, refFound (sourcesOf E r C k e) = some (.ok g) → CountsAs st g (part g) := by
  have one : ∀ x : Ans (Option Value), x = (refFound [x] >>= fun g => pure g.head?) ∧
      ∀ g, refFound [x] = some (.ok g) → CountsAs st g g.head? := by
    intro x
    match x with
    | none => exact ⟨rfl, fun g h => nomatch h⟩
    | some (.panic _) => exact ⟨rfl, fun g h => nomatch h⟩
    | some (.ok none) => exact ⟨rfl, fun g h => by cases h; exact .merged⟩
    | some (.ok (some v)) => exact ⟨rfl, fun g h => by cases h; exact .only⟩
  unfold refEntry sourcesOf
  cases e.locations with
  | none => exact ⟨_, one _⟩
  | some ls =>
    match ls with
    | [] => exact ⟨_, refMerge_found hst (by simp), fun g _ => .merged⟩
    | [l] => exact ⟨_, one _⟩
    | l :: l' :: ls => exact ⟨_, refMerge_found hst (by simp), fun g _ => .merged⟩

theorem entries_count {st : Strategy} (hst : st ≠ .first) (es : List Entry) :
    (∃ e : Option Err, refFound (es.map (refEntry E r C k st)) = e.map .panic ∧ refFound (es.flatMap (sourcesOf E r C k)) = e.map .panic) ∨
    ∃ gs os, List.Forall₂ (CountsAs st) gs os ∧ refFound (es.map (refEntry E r C k st)) = some (.ok (os.flatMap Option.toList)) ∧
      refFound (es.flatMap (sourcesOf E r C k)) = some (.ok gs.flatten) := by
  induction es with
  | nil => exact .inr ⟨[], [], .nil, rfl, rfl⟩
  | cons e es ih =>
    obtain ⟨part, h1, h2⟩ := entry_counts E r C k hst e
    rw [List.map_cons, List.flatMap_cons, refFound_append, refFound, h1]
    match hg : refFound (sourcesOf E r C k e) with
    | none => exact .inl ⟨none, rfl, rfl⟩
    | some (.panic er) => exact .inl ⟨some er, rfl, rfl⟩
    | some (.ok g) =>
      rcases ih with ⟨er, h3, h4⟩ | ⟨gs, os, h3, h4, h5⟩
      · rw [h3, h4]
        cases er with
        | none => exact .inl ⟨none, rfl, rfl⟩
        | some er => exact .inl ⟨some er, rfl, rfl⟩
      · rw [h4, h5]
        exact .inr ⟨g :: gs, part g :: os, .cons (h2 g hg) h3, rfl, rfl⟩

/-- A merge of sources that are not grouped. -/
def flatMerge (st : Strategy) (xs : List (Ans (Option Value))) : Ans (Option Value) :=
  match st with
  | .first => refFirst xs
  | st => refFound xs >>= fun vs => pure (refCombine st vs)

/-- What a hierarchy has for a key is the merge of what its sources have, however they are grouped. -/
theorem hierarchy_flat {st : Strategy} {es : List Entry} (h1 : es.length ≠ 1) (hc : NoClash E r C k st es) :
    refHierarchy E r C k st es = flatMerge st (es.flatMap (sourcesOf E r C k)) := by
  by_cases hst : st = .first
  · subst hst
    exact hierarchy_first E r C k es
  · have hf : ∀ xs, flatMerge st xs = (refFound xs >>= fun vs => pure (refCombine st vs)) := by
      intro xs
      cases st with
      | first => exact absurd rfl hst
      | _ => rfl
    rw [hf]
    unfold refHierarchy
    rw [refMerge_found hst (by simpa using h1)]
    rcases entries_count E r C k hst es with ⟨er, h3, h4⟩ | ⟨gs, os, h3, h4, h5⟩
    · rw [h3, h4]
    · rw [h4, h5]
      show some (Res.ok (refCombine st _)) = some (Res.ok (refCombine st _))
      rw [regroup hst h3 (hc _ h5)]

theorem hierarchy_regrouped {st : Strategy} {es es' : List Entry} (h1 : es.length ≠ 1) (h1' : es'.length ≠ 1)
    (hs : es'.flatMap (sourcesOf E r C k) = es.flatMap (sourcesOf E r C k)) (hc : NoClash E r C k st es) :
    refHierarchy E r C k st es' = refHierarchy E r C k st es := by
  have hc' : NoClash E r C k st es' := by unfold NoClash; rw [hs]; exact hc
  rw [hierarchy_flat E r C k h1 hc, hierarchy_flat E r C k h1' hc', hs]
end

/-! ### Resolving -/

theorem sourcesOf_at (E : Env) (r : Ref) (C : Ctx) (k : Key) (e : Entry) (nm : Str) (ls : List Loc) :
    sourcesOf E r C k (renamed e nm ls) = ls.map (refAt E r C k e) := by
  show ls.map (refAt E r C k (renamed e nm ls)) = _
  apply List.map_congr_left
  intro l _
  cases l with
  | path o q x => cases x <;> rfl
  | _ => rfl

theorem function_at (E : Env) (r : Ref) (C : Ctx) (d : Option Entry) (e : Entry) (nm : Str) (ls : List Loc) :
    refFunction E r C d (renamed e nm ls) = (refFunction E r C d e >>= fun e' => pure (renamed e' nm ls)) := by
  obtain ⟨root, dd, pd, pf, opts, f, nm, locs⟩ := e
  unfold refFunction
  cases f with
  | some f =>
    dsimp only
    rw [ans_bind_assoc]
    rfl
  | none =>
    cases d with
    | none => rfl
    | some d =>
      dsimp only
      cases d.function <;> rfl

theorem sourcesOf_groups (E : Env) (r : Ref) (C : Ctx) (k : Key) (e : Entry) (nm : Str) (gs : List (Str × List Loc)) :
    (gs.map (fun g => renamed e g.1 g.2)).flatMap (sourcesOf E r C k) = sourcesOf E r C k (renamed e nm (gs.map (·.2)).flatten) := by
  rw [sourcesOf_at]
  induction gs with
  | nil => rfl
  | cons g gs ih => rw [List.map_cons, List.flatMap_cons, ih, sourcesOf_at, List.map_cons, List.flatten_cons, List.map_append]

/-- Resolving an entry, apart from its name and locations. -/
theorem resolve_at (E : Env) (r : Ref) (C : Ctx) (d : Option Entry) (e : Entry) : ∃ x : Ans (Entry × Str), ∀ nm ls,
    refResolve E r C d (renamed e nm ls) = (x >>= fun a => refLocs E r C a.2 ls >>= fun ls' => pure (renamed a.1 nm ls')) := by
  refine ⟨do
    let e ← refFunction E r C d e
    let e ← refFunction E r C d e
    let dir ← refDir E r C e.dataDir (d.map (·.dataDir)) E.cfg.defaultDataDir
    let pdir ← refDir E r C e.pluginDir (d.map (·.pluginDir)) E.cfg.defaultPluginDir
    let opts ← refOptions E r C d e
    pure ({ e with dataDir := dir, pluginDir := seenFrom e.root pdir, options := opts }, seenFrom e.root dir), fun nm ls => ?_⟩
  unfold refResolve
  rw [function_at]
  simp only [ans_bind_assoc]
  congr 1
  funext e1
  show (refFunction E r C d (renamed e1 nm ls) >>= _) = _
  rw [function_at]
  simp only [ans_bind_assoc]
  congr 1
  funext e2
  show (refDir E r C e2.dataDir _ _ >>= fun dir => refDir E r C e2.pluginDir _ _ >>= fun pdir => refOptions E r C d e2 >>= fun opts =>
    (refLocs E r C (seenFrom e2.root dir) ls >>= fun ls' => pure (some ls')) >>= fun locs => _) = _
  congr 1
  funext dir
  congr 1
  funext pdir
  congr 1
  funext opts
  rw [ans_bind_assoc]
  rfl

/-- An entry for each location of an entry is resolved to entries with the same locations in the same order. -/
theorem split_resolved (E : Env) (r : Ref) (C : Ctx) (d : Entry) (e : Entry) {ls : List (Str × Loc)} (hls : ls ≠ []) :
    (∃ er : Option Err, refResolve E r C (some d) (renamed e e.name (ls.map (·.2))) = er.map .panic ∧
      refResolveAll E r C d (ls.map (fun l => renamed e l.1 [l.2])) = er.map .panic) ∨
    ∃ (x : Entry) (gs : List (Str × List Loc)), refResolve E r C (some d) (renamed e e.name (ls.map (·.2))) = some (.ok (renamed x e.name (gs.map (·.2)).flatten)) ∧
      gs.length = ls.length ∧
      refResolveAll E r C d (ls.map (fun l => renamed e l.1 [l.2])) = some (.ok (gs.map (fun g => renamed x g.1 g.2))) := by
  obtain ⟨y, hy⟩ := resolve_at E r C (some d) e
  rw [hy]
  have all : ∀ ls : List (Str × Loc), refResolveAll E r C d (ls.map (fun l => renamed e l.1 [l.2])) = match ls with
      | [] => pure []
      | l :: ls => (y >>= fun a => refLocs E r C a.2 [l.2] >>= fun ls' => pure (renamed a.1 l.1 ls')) >>= fun x =>
          refResolveAll E r C d (ls.map (fun l => renamed e l.1 [l.2])) >>= fun xs => pure (x :: xs) := by
    intro ls
    cases ls with
    | nil => rfl
    | cons l ls => rw [List.map_cons, refResolveAll, hy]
  match y, all with
  | none, all =>
    cases ls with
    | nil => exact absurd rfl hls
    | cons l ls => rw [all]; exact .inl ⟨none, rfl, rfl⟩
  | some (.panic er), all =>
    cases ls with
    | nil => exact absurd rfl hls
    | cons l ls => rw [all]; exact .inl ⟨some er, rfl, rfl⟩
  | some (.ok (x, dir)), all =>
    clear hls hy
    show (∃ er : Option Err, (refLocs E r C dir (ls.map (·.2)) >>= fun ls' => pure (renamed x e.name ls')) = er.map .panic ∧ _) ∨
      ∃ (x' : Entry) (gs : List (Str × List Loc)), (refLocs E r C dir (ls.map (·.2)) >>= fun ls' => pure (renamed x e.name ls')) = _ ∧ _
    have key : (∃ er : Option Err, refLocs E r C dir (ls.map (·.2)) = er.map .panic ∧
        refResolveAll E r C d (ls.map (fun l => renamed e l.1 [l.2])) = er.map .panic) ∨
        ∃ gs : List (Str × List Loc), refLocs E r C dir (ls.map (·.2)) = some (.ok (gs.map (·.2)).flatten) ∧ gs.length = ls.length ∧
          refResolveAll E r C d (ls.map (fun l => renamed e l.1 [l.2])) = some (.ok (gs.map (fun g => renamed x g.1 g.2))) := by
      induction ls with
      | nil => exact .inr ⟨[], rfl, rfl, rfl⟩
      | cons l ls ih =>
        rw [all]
        show (∃ er : Option Err, _ ∧ ((refLocs E r C dir [l.2] >>= fun ls' => pure (renamed x l.1 ls')) >>= fun x =>
          refResolveAll E r C d (ls.map (fun l => renamed e l.1 [l.2])) >>= fun xs => pure (x :: xs)) = er.map .panic) ∨
          ∃ gs : List (Str × List Loc), _ ∧ _ ∧ ((refLocs E r C dir [l.2] >>= fun ls' => pure (renamed x l.1 ls')) >>= fun x =>
          refResolveAll E r C d (ls.map (fun l => renamed e l.1 [l.2])) >>= fun xs => pure (x :: xs)) = _
        rw [List.map_cons, refLocs, refLocs, refLocs]
        match refLoc E r C dir l.2 with
        | none => exact .inl ⟨none, rfl, rfl⟩
        | some (.panic er) => exact .inl ⟨some er, rfl, rfl⟩
        | some (.ok g) =>
          rcases ih with ⟨er, h1, h2⟩ | ⟨gs, h1, h2, h3⟩
          · rw [h1, h2]
            cases er with
            | none => exact .inl ⟨none, rfl, rfl⟩
            | some er => exact .inl ⟨some er, rfl, rfl⟩
          · rw [h1, h3]
            refine .inr ⟨(l.1, g) :: gs, rfl, by simp [h2], ?_⟩
            show some (Res.ok (renamed x l.1 (g ++ []) :: gs.map (fun g => renamed x g.1 g.2))) = _
            rw [List.append_nil]
            rfl
    rcases key with ⟨er, h1, h2⟩ | ⟨gs, h1, h2, h3⟩
    · rw [h1, h2]
      cases er with
      | none => exact .inl ⟨none, rfl, rfl⟩
      | some er => exact .inl ⟨some er, rfl, rfl⟩
    · rw [h1, h3]
      exact .inr ⟨x, gs, rfl, h2, rfl⟩

theorem resolveAll_length (E : Env) (r : Ref) (C : Ctx) (d : Entry) : ∀ (es fs : List Entry), refResolveAll E r C d es = some (.ok fs) →
    fs.length = es.length := by
  intro es
  induction es with
  | nil => intro fs h; cases h; rfl
  | cons a as ih =>
    intro fs h
    rw [refResolveAll] at h
    match h2 : refResolve E r C (some d) a, h with
    | some (.ok b), h =>
      match h3 : refResolveAll E r C d as, h with
      | some (.ok bs), h =>
        cases h
        simp [ih bs h3]

/-- The answers are the same with a level for each location of a level. -/
theorem answers_split {E : Env} {sc : Scope} {p : Str} {c c' : Cfg}
    (hc : newCfg E.cfg E.configPath (E.readYaml E.configPath) = .ok c) (hc' : newCfg E.cfg p (E.readYaml p) = .ok c')
    (hd : c'.defaults = c.defaults) (hdh : c'.defaultHierarchy = c.defaultHierarchy) {pre post : List Entry} {e : Entry} {ls : List (Str × Loc)}
    (hls : ls ≠ []) (hh : c.hierarchy = pre ++ renamed e e.name (ls.map (·.2)) :: post)
    (hh' : c'.hierarchy = pre ++ ls.map (fun l => renamed e l.1 [l.2]) ++ post) (h1 : pre ++ post ≠ []) (hn : NeverClashes E sc c)
    (k : Key) (o : Entries) (r : Res (Option Value)) :
    Answer (withFiles E p E.readYaml E.readJson) sc k o r ↔ Answer E sc k o r := by
  have hK := shut_everything E sc
  have key : ∀ n m, refAnswer (withFiles E p E.readYaml E.readJson) sc k o n m = refAnswer E sc k o n m := by
    intro n m
    refine refAnswer_alike hK ?_ ?_ hc hc' trivial o m
    · have hn := hn n
      unfold refLevels at hn ⊢
      rw [hd]
      match hdf : refResolve E (ref E none n) ⟨sc, .call⟩ none c.defaults with
      | none => exact .inl ⟨none, rfl, rfl⟩
      | some (.panic er) => exact .inl ⟨some er, rfl, rfl⟩
      | some (.ok d) =>
        rw [hdf] at hn
        show (∃ er : Option Err, refResolveAll E _ _ d c.hierarchy = _ ∧ refResolveAll E _ _ d c'.hierarchy = _) ∨
          ∃ es es', _ ∧ refResolveAll E _ _ d c.hierarchy = _ ∧ refResolveAll E _ _ d c'.hierarchy = _
        have hn : ∀ es, refResolveAll E (ref E none n) ⟨sc, .call⟩ d c.hierarchy = some (.ok es) → _ := hn
        rw [hh, refResolveAll_append, refResolveAll] at hn ⊢
        rw [hh', refResolveAll_append, refResolveAll_append]
        match ha : refResolveAll E (ref E none n) ⟨sc, .call⟩ d pre with
        | none => exact .inl ⟨none, rfl, rfl⟩
        | some (.panic er) => exact .inl ⟨some er, rfl, rfl⟩
        | some (.ok a) =>
          rw [ha] at hn
          rcases split_resolved E (ref E none n) ⟨sc, .call⟩ d e hls with ⟨er, h2, h3⟩ | ⟨x, gs, h2, h3, h4⟩
          · rw [h2, h3]
            cases er with
            | none => exact .inl ⟨none, rfl, rfl⟩
            | some er => exact .inl ⟨some er, rfl, rfl⟩
          · rw [h2] at hn ⊢
            rw [h4]
            match hb : refResolveAll E (ref E none n) ⟨sc, .call⟩ d post with
            | none => exact .inl ⟨none, rfl, rfl⟩
            | some (.panic er) => exact .inl ⟨some er, rfl, rfl⟩
            | some (.ok b) =>
              rw [hb] at hn
              have hn := hn _ rfl
              have hab : 1 ≤ (a ++ b).length := by
                rw [List.length_append, resolveAll_length _ _ _ _ _ _ ha, resolveAll_length _ _ _ _ _ _ hb, ← List.length_append]
                exact List.length_pos_iff.2 h1
              have hg : 1 ≤ gs.length := by rw [h3]; exact List.length_pos_iff.2 hls
              rw [List.length_append] at hab
              refine .inr ⟨a ++ renamed x e.name (gs.map (·.2)).flatten :: b, a ++ gs.map (fun g => renamed x g.1 g.2) ++ b, ?_, rfl, rfl⟩
              intro r r' C k st hP hr hC hk
              have hNC : NoClash E r C k st (a ++ renamed x e.name (gs.map (·.2)).flatten :: b) := by
                have hC' : C = ⟨sc, C.within⟩ := by rw [← hC]
                rw [hC']
                rcases hP with rfl | ⟨o, m, rfl⟩
                · exact (hn C.within k st).1
                · exact (hn C.within k st).2 o m
              have hsrc : (a ++ gs.map (fun g => renamed x g.1 g.2) ++ b).flatMap (sourcesOf E r C k) =
                  (a ++ renamed x e.name (gs.map (·.2)).flatten :: b).flatMap (sourcesOf E r C k) := by
                rw [List.flatMap_append, List.flatMap_append, List.flatMap_append, List.flatMap_cons, sourcesOf_groups E r C k x e.name, List.append_assoc]
              rw [← hierarchy_regrouped E r C k (es := a ++ renamed x e.name (gs.map (·.2)).flatten :: b) (es' := a ++ gs.map (fun g => renamed x g.1 g.2) ++ b)
                (by simp; omega) (by simp; omega) hsrc hNC]
              refine hierAlike hK (P := fun _ => True) (fun e _ f hf => ⟨fun _ => ?_, fun _ _ _ _ => ?_⟩) r r' C k st trivial hr hC hk
              · exact refHash_alike (fun _ _ => .same) (fun _ _ => .same) (fun _ _ _ v _ _ _ => withinV_any v)
                  (fun _ _ _ v _ _ _ => withinV_any v) (fun _ _ _ _ v _ _ _ _ => withinV_any v)
              · exact refHash_alike (fun _ _ => .same) (fun _ _ => .same) (fun _ _ _ v _ _ _ => withinV_any v)
                  (fun _ _ _ v _ _ _ => withinV_any v) (fun _ _ _ _ v _ _ _ _ => withinV_any v)
    · unfold refLevels
      rw [hd, hdh]
  simp only [Answer, key]

/-! ### Data of the same shapes -/

theorem sameShape_between {a b c : Value} (h1 : SameShape a b) : Between a b c := by
  intro path x y z hp hx hy _ hs
  exact same_symm (h1 path x y hp hx hy x (same_trans hs (same_symm hs)))

theorem noneBetween_of_shape (st : Strategy) {vs : List Value} (h : ∀ v ∈ vs, ∀ w ∈ vs, SameShape v w) : NoneBetween st vs := by
  have hm : ∀ a b c, [a, b, c].Sublist vs → SameShape a b := by
    intro a b c hs
    exact h a (hs.subset (by simp)) b (hs.subset (by simp))
  cases st with
  | first => trivial
  | unique => trivial
  | hash =>
    rintro a b c hs ⟨as, rfl⟩ _
    have := hm _ b c hs [] (.map as) b (fun _ h => nomatch h) rfl rfl (.map as) trivial
    cases b with
    | map bs => exact ⟨bs, rfl⟩
    | _ => exact this.elim
  | deep o => exact fun a b c hs => sameShape_between (hm a b c hs)

theorem refFound_mem : ∀ {xs : List (Ans (Option Value))} {vs : List Value}, refFound xs = some (.ok vs) → ∀ v ∈ vs, some (.ok (some v)) ∈ xs := by
  intro xs
  induction xs with
  | nil => intro vs h v hv; cases h; cases hv
  | cons x xs ih =>
    intro vs h v hv
    rw [refFound] at h
    match x, h with
    | some (.ok y), h =>
      match hf : refFound xs, h with
      | some (.ok ws), h =>
        cases h
        rcases List.mem_append.1 hv with h1 | h1
        · cases y with
          | none => cases h1
          | some w => rw [List.mem_singleton.1 h1]; exact List.mem_cons_self ..
        · exact List.mem_cons_of_mem _ (ih hf v h1)

theorem wellShaped_noClash {E : Env} {es : List Entry} (h : WellShaped E es) (r : Ref) (C : Ctx) (k : Key) (st : Strategy) :
    NoClash E r C k st es := by
  have src : ∀ v, some (.ok (some v)) ∈ es.flatMap (sourcesOf E r C k) → InData E es k.root v := by
    intro v hv
    obtain ⟨e, he, hv⟩ := List.mem_flatMap.1 hv
    obtain ⟨n, hn⟩ := h.hash e he
    have one : ∀ l, (match l with | none => e.locations = none | some l => ∃ ls, e.locations = some ls ∧ l ∈ ls) →
        refSource E r C k e l = some (.ok (some v)) → InData E es k.root v := by
      intro l hl hs
      unfold refSource at hs
      rw [hn] at hs
      dsimp only at hs
      cases hh : refHash E e n (refOpts e l) with
      | panic er => rw [hh] at hs; cases hs
      | ok hsh =>
        rw [hh] at hs
        have hs : (match Entries.getS hsh k.root with | some v => refInterp E r C true v | none => (pure none : Ans (Option Value))) = some (.ok (some v)) := hs
        cases hg : Entries.getS hsh k.root with
        | none => rw [hg] at hs; cases hs
        | some w =>
          have hin : InData E es k.root w := ⟨e, he, n, l, hsh, hn, hl, hh, hg⟩
          rw [hg] at hs
          dsimp only at hs
          rw [refInterp_unmarked true (unmarked_iff (h.plain _ _ hin).2)] at hs
          cases hs
          exact hin
    unfold sourcesOf at hv
    cases hl : e.locations with
    | none =>
      rw [hl] at hv
      exact one none hl (List.mem_singleton.1 hv).symm
    | some ls =>
      rw [hl] at hv
      obtain ⟨l, hm, hv⟩ := List.mem_map.1 hv
      unfold refAt at hv
      split at hv
      · exact one (some _) ⟨ls, hl, hm⟩ hv
      · exact one (some _) ⟨ls, hl, hm⟩ hv
      · cases hv
  intro vs hvs
  have hin := fun v hv => src v (refFound_mem hvs v hv)
  exact ⟨fun v hv => (h.plain _ v (hin v hv)).1, noneBetween_of_shape st (fun v hv w hw => h.same _ v w (hin v hv) (hin w hw))⟩

theorem neverClashes_of_shape {E : Env} {sc : Scope} {c : Cfg}
    (h : ∀ n es, refLevels E (ref E none n) ⟨sc, .call⟩ c c.hierarchy = some (.ok es) → WellShaped E es) : NeverClashes E sc c :=
  fun n es hes _ k st => ⟨wellShaped_noClash (h n es hes) _ _ k st, fun _ _ => wellShaped_noClash (h n es hes) _ _ k st⟩

end Hiera
