import Verif.Spec.Rungs
import Verif.Lemmas.Grouped2
import Verif.Lemmas.Ordinary

/-! # Levels of every kind -/

set_option autoImplicit false

namespace Hiera

open Value Spec

/-! ### The configuration -/

/-- The locations of a level, before they are resolved. -/
def Spec.Whereabouts.locs : Whereabouts → List Loc
  | .path p => [.path (textWritten p) [] false]
  | .paths ps => ps.map (fun p => .path (textWritten p) [] false)
  | .glob p => [.glob (textWritten p)]
  | .globs ps => ps.map (fun p => .glob (textWritten p))
  | .mapped x fs as p => [.mapped (joinDots (x :: fs)) as (textWritten p)]

/-- The entry of a level, before it is resolved. -/
def stepEntry (root : Str) (r : Step) : Entry :=
  { root := root, dataDir := (r.dir.map textWritten).getD [], function := r.json.map (fun j => (.dataHash, readerOf j)),
    name := r.name, locations := some r.place.locs }

/-- The entry of the defaults, before it is resolved. -/
def presetEntry (E : Env) : Option Preset → Entry
  | some p => { root := dir E.configPath, dataDir := (p.dir.map textWritten).getD [],
                function := p.json.map (fun j => (.dataHash, readerOf j)), name := "defaults".toList }
  | none => makeDefaultConfig E.cfg (dir E.configPath)

theorem createEntry_step (E : Env) (root : Str) (r : Step) {es : Entries} (h : r.written = .map es) :
    createEntry E.cfg root r.name es = .ok (stepEntry root r) := by
  obtain ⟨nm, d, j, pl⟩ := r
  have hs : ∀ (f : Str → Loc) (ps : List (List PathPiece)),
      (ps.map (fun p => Value.str (textWritten p))).map (fun p => f (E.cfg.toStr p)) = ps.map (fun p => f (textWritten p)) := fun f ps => by
    rw [List.map_map]; rfl
  cases h
  cases pl with
  | path p => rcases j with _ | _ | _ <;> cases d <;> rfl
  | glob p => rcases j with _ | _ | _ <;> cases d <;> rfl
  | mapped x fs as p => rcases j with _ | _ | _ <;> cases d <;> rfl
  | paths ps =>
    have h : (Res.ok (stepEntry root ⟨nm, d, j, .paths ps⟩) : Res Entry) = Res.ok { stepEntry root ⟨nm, d, j, .paths ps⟩ with
        locations := some ((ps.map (fun p => Value.str (textWritten p))).map (fun p => Loc.path (E.cfg.toStr p) [] false)) } := by
      rw [hs (fun p => .path p [] false)]; rfl
    rw [h]
    rcases j with _ | _ | _ <;> cases d <;> rfl
  | globs ps =>
    have h : (Res.ok (stepEntry root ⟨nm, d, j, .globs ps⟩) : Res Entry) = Res.ok { stepEntry root ⟨nm, d, j, .globs ps⟩ with
        locations := some ((ps.map (fun p => Value.str (textWritten p))).map (fun p => Loc.glob (E.cfg.toStr p))) } := by
      rw [hs .glob]; rfl
    rw [h]
    rcases j with _ | _ | _ <;> cases d <;> rfl

theorem createEntry_preset (E : Env) (p : Preset) {es : Entries} (h : p.written = .map es) :
    createEntry E.cfg (dir E.configPath) "defaults".toList es = .ok (presetEntry E (some p)) := by
  obtain ⟨d, j⟩ := p
  cases h
  rcases j with _ | _ | _ <;> cases d <;> rfl

theorem createHierarchy_steps (E : Env) (root : Str) : ∀ (rs : List Step) (seen : List Str), (∀ r ∈ rs, r.name ∉ seen) →
    (rs.map Step.name).Nodup →
    createHierarchyLoop E.cfg root seen (rs.map Step.written) = .ok (rs.map (stepEntry root))
  | [], _, _, _ => rfl
  | r :: rs, seen, h, hd => by
    have step : ∀ vs, createHierarchyLoop E.cfg root seen (r.written :: vs) =
        if r.name ∈ seen then .panic (.duplicateName r.name)
        else (Res.ok (stepEntry root r)).bind (fun e =>
          (createHierarchyLoop E.cfg root (r.name :: seen) vs).bind (fun es => .ok (e :: es))) := fun vs => by
      rw [← createEntry_step E root r rfl]
      rfl
    rw [List.map_cons, step, if_neg (h r (List.mem_cons_self ..)), Res.bind]
    rw [List.map_cons, List.nodup_cons] at hd
    rw [createHierarchy_steps E root rs (r.name :: seen) (fun m hm hs => ?_) hd.2]
    · rfl
    · rcases List.mem_cons.1 hs with hs | hs
      · exact hd.1 (hs ▸ List.mem_map.2 ⟨m, hm, rfl⟩)
      · exact h m (List.mem_cons_of_mem _ hm) hs

theorem member_format (b : Bool) (j : Option Bool) :
    (formatWritten j).all (fun e => match e.1 with | .str k => memberOK b k e.2 | _ => false) = true := by
  rcases j with _ | _ | _ <;> cases b <;> rfl

theorem member_dir (b : Bool) {d : Option (List PathPiece)} (h : ∀ p, d = some p → textWritten p ≠ []) :
    (dirWritten d).all (fun e => match e.1 with | .str k => memberOK b k e.2 | _ => false) = true := by
  cases d with
  | none => rfl
  | some d =>
    show (memberOK b "datadir".toList (.str (textWritten d)) && true) = true
    have hm : memberOK b "datadir".toList (.str (textWritten d)) = isRString (.str (textWritten d)) := rfl
    rw [hm]
    have := h d rfl
    cases hx : textWritten d with
    | nil => exact absurd hx this
    | cons => rfl

theorem isStruct_step {r : Step} (hname : r.name ≠ []) (ht : r.place.texts ≠ [] ∧ ∀ p ∈ r.place.texts ++ r.dir.toList, textWritten p ≠ [])
    (hm : ∀ x fs as p, r.place = .mapped x fs as p → Name x ∧ (∀ f ∈ fs, Name f) ∧ as ≠ []) : isStruct true r.written = true := by
  have s : ∀ x : Str, x ≠ [] → isRString (.str x) = true := fun x hx => by cases x <;> simp_all [isRString]
  have hn := s _ hname
  obtain ⟨nm, d, j, pl⟩ := r
  have hp : ∀ p ∈ pl.texts, isRString (.str (textWritten p)) = true := fun p h => s _ (ht.2 p (by simp [h]))
  have hw : memberOK true (match pl.written.1 with | .str k => k | _ => []) pl.written.2 = true := by
    cases pl with
    | path p => exact hp p (by simp [Whereabouts.texts])
    | glob p => exact hp p (by simp [Whereabouts.texts])
    | paths ps =>
      show isRStrings 1 none (strings ps) = true
      have h0 : ps ≠ [] := ht.1
      have : 1 ≤ ps.length := List.length_pos_iff.2 h0
      simp only [isRStrings, strings, List.length_map, List.all_map, Bool.and_true, Bool.and_eq_true, decide_eq_true_eq, List.all_eq_true]
      exact ⟨this, fun p h => hp p h⟩
    | globs ps =>
      show isRStrings 1 none (strings ps) = true
      have h0 : ps ≠ [] := ht.1
      have : 1 ≤ ps.length := List.length_pos_iff.2 h0
      simp only [isRStrings, strings, List.length_map, List.all_map, Bool.and_true, Bool.and_eq_true, decide_eq_true_eq, List.all_eq_true]
      exact ⟨this, fun p h => hp p h⟩
    | mapped x fs as p =>
      obtain ⟨h1, h2, h3⟩ := hm x fs as p rfl
      have h4 : joinDots (x :: fs) ≠ [] := by
        obtain ⟨c, cs, h, _⟩ := dots_head h1 h2
        rw [h]; simp
      show (true && true && (isRString (.str (joinDots (x :: fs))) && (isRString (.str as) && (isRString (.str (textWritten p)) && true)))) = true
      rw [s _ h4, s _ h3, hp p (by simp [Whereabouts.texts])]
      rfl
  have hk : ∃ k, pl.written.1 = .str k := by cases pl <;> exact ⟨_, rfl⟩
  obtain ⟨k, hk⟩ := hk
  rw [hk] at hw
  have hn' : memberOK true "name".toList (.str nm) = true := hn
  have key : ∀ es : Entries, (es.all (fun e => match e.1 with | .str k => memberOK true k e.2 | _ => false)) = true →
      isStruct true (.map ((.str "name".toList, .str nm) :: es)) = true := fun es h => by
    show ((memberOK true "name".toList (.str nm) && es.all _) && true) = true
    simp only [Bool.and_true, Bool.and_eq_true]
    exact ⟨hn', h⟩
  apply key
  rw [List.all_append, List.all_append, Bool.and_eq_true, Bool.and_eq_true]
  refine ⟨member_dir true (fun p (h : d = some p) => ht.2 p (by simp [h])), member_format true j, ?_⟩
  show ((match pl.written.1 with | .str k => memberOK true k pl.written.2 | _ => false) && true) = true
  rw [hk]
  simpa using hw

theorem isStruct_preset {p : Preset} (h : ∀ d, p.dir = some d → textWritten d ≠ []) : isStruct false p.written = true := by
  show ((dirWritten p.dir ++ formatWritten p.json).all _ && true) = true
  rw [Bool.and_true, List.all_append, Bool.and_eq_true]
  exact ⟨member_dir false h, member_format false _⟩

theorem stepped_as {E E' : Env} {sc : Scope} {rs : List Rung} (ho : Laddered E' sc rs) {p : Option Preset} {ss : List Step}
    (h1 : E.readYaml E.configPath = .value (configSaid p ss)) (h2 : rs = ss.map (Step.filled p))
    (h3 : ∀ d, p.bind Preset.dir = some d → textWritten d ≠ [] ∧ ∀ x ∈ d, x.Ok) : Stepped E rs p ss := by
  have mem : ∀ r ∈ ss, Step.filled p r ∈ rs := fun r hr => h2 ▸ List.mem_map.2 ⟨r, hr, rfl⟩
  refine ⟨h1, h2, h3, fun r hr => ho.named _ (mem r hr), ?_, fun r hr => ?_, fun r hr => ho.mapped _ (mem r hr)⟩
  · have := ho.distinct
    rw [h2, List.map_map] at this
    exact this
  · obtain ⟨h, h'⟩ := ho.texts _ (mem r hr)
    refine ⟨h, fun q hq => h' q ?_⟩
    rcases List.mem_append.1 hq with hq | hq
    · exact List.mem_append_left _ hq
    · refine List.mem_append_right _ ?_
      show q ∈ (r.dir.or (p.bind Preset.dir)).toList
      cases hd : r.dir with
      | none => rw [hd] at hq; cases hq
      | some d => rw [hd] at hq; exact hq

theorem rungs_stepped {E : Env} {sc : Scope} {rs : List Rung} (ho : Laddered E sc rs) : ∃ p ss, Stepped E rs p ss := by
  obtain ⟨p, ss, h1, h2, h3⟩ := ho.config
  exact ⟨p, ss, stepped_as ho h1 h2 h3⟩

theorem newCfg_steps {E : Env} {rs : List Rung} {p : Option Preset} {ss : List Step} (ho : Stepped E rs p ss) :
    newCfg E.cfg E.configPath (E.readYaml E.configPath) = .ok ⟨dir E.configPath, E.configPath,
      presetEntry E p, ss.map (stepEntry (dir E.configPath)), []⟩ := by
  rw [ho.config]
  have hs : isEntryArray (.arr (ss.map Step.written)) = true := by
    simp only [isEntryArray, List.all_map, List.all_eq_true]
    exact fun r hr => isStruct_step (ho.named r hr) ⟨(ho.texts r hr).1, fun q hq => ((ho.texts r hr).2 q hq).1⟩ (ho.mapped r hr)
  have hh := createHierarchy_steps E (dir E.configPath) ss [] (by simp) ho.distinct
  cases p with
  | none =>
    show newCfg E.cfg E.configPath (.value (.map [(.str "version".toList, .int 5), (.str "hierarchy".toList, .arr (ss.map Step.written))])) = _
    generalize ss.map Step.written = ws at hs hh
    have hc : isCfg [(.str "version".toList, .int 5), (.str "hierarchy".toList, .arr ws)] = true := by
      show (true && (true && (isEntryArray (.arr ws) && true))) = true
      rw [hs]; rfl
    unfold newCfg
    simp only [hc, if_true]
    show Res.bind (Res.ok (makeDefaultConfig E.cfg (dir E.configPath))) (fun d => Res.bind (createHierarchyLoop E.cfg (dir E.configPath) [] ws) _) = _
    rw [hh]
    rfl
  | some p =>
    have hp := isStruct_preset (p := p) (fun d hd => (ho.dir d hd).1)
    obtain ⟨es, he⟩ : ∃ es, p.written = .map es := ⟨_, rfl⟩
    have hd := createEntry_preset E p he
    show newCfg E.cfg E.configPath (.value (.map [(.str "version".toList, .int 5), (.str "defaults".toList, p.written),
      (.str "hierarchy".toList, .arr (ss.map Step.written))])) = _
    rw [he] at hp ⊢
    generalize ss.map Step.written = ws at hs hh
    have hc : isCfg [(.str "version".toList, .int 5), (.str "defaults".toList, .map es), (.str "hierarchy".toList, .arr ws)] = true := by
      show (true && (true && (isStruct false (.map es) && (isEntryArray (.arr ws) && true)))) = true
      rw [hs, hp]; rfl
    unfold newCfg
    simp only [hc, if_true]
    show Res.bind (createEntry E.cfg (dir E.configPath) "defaults".toList es) (fun d => Res.bind (createHierarchyLoop E.cfg (dir E.configPath) [] ws) _) = _
    rw [hd, hh]
    rfl

theorem newCfg_rungs {E : Env} {sc : Scope} {rs : List Rung} (ho : Laddered E sc rs) :
    ∃ c, newCfg E.cfg E.configPath (E.readYaml E.configPath) = .ok c := by
  obtain ⟨p, ss, h⟩ := rungs_stepped ho
  exact ⟨_, newCfg_steps h⟩

/-! ### Resolving -/

/-- The locations of a level, resolved. -/
def Spec.Whereabouts.resolved (E : Env) (sc : Scope) (d : Str) : Whereabouts → List Loc
  | .path p => [.path (textWritten p) (join d (textMeant E sc p)) (E.stat (join d (textMeant E sc p)))]
  | .paths ps => ps.map (fun p => .path (textWritten p) (join d (textMeant E sc p)) (E.stat (join d (textMeant E sc p))))
  | .glob p => (E.glob (join d (textMeant E sc p))).map (fun m => .path (textWritten p) m true)
  | .globs ps => ps.flatMap (fun p => (E.glob (join d (textMeant E sc p))).map (fun m => .path (textWritten p) m true))
  | .mapped x fs as p => (elementsOf sc x fs).map (fun v =>
      .path (textWritten p) (join d (textMeant E (also sc as v) p)) (E.stat (join d (textMeant E (also sc as v) p))))

/-- The name of the function of a level. -/
def Spec.Rung.reader (r : Rung) : Str := readerOf r.json

/-- The entry of a level, resolved. -/
def resolvedRung (E : Env) (sc : Scope) (r : Rung) : Entry :=
  { root := dir E.configPath, dataDir := (match r.dir with | some d => textMeant E sc d | none => theDataDir E),
    pluginDir := seenFrom (dir E.configPath) (seenFrom (dir E.configPath) (thePluginDir E)),
    options := some [], function := some (.dataHash, r.reader), name := r.name,
    locations := some (r.place.resolved E sc (r.dataDir E sc)) }

theorem refCfg_text {E : Env} {n : Nat} {C : Ctx} {p : List PathPiece} (hp : ∀ x ∈ p, x.Ok) (hv : ∀ x v, C.scope.get x = some v → Unmarked v) :
    refCfg E (ref E none (n + 1)) C (textWritten p) = pure (textMeant E C.scope p) := by
  unfold refCfg
  rw [textWritten, tokens_eq (pieces_splits p hp)]
  exact refText_pieces p hp (fun x _ _ => hv x)

theorem unmarked_element {vs : List Value} (h : Unmarked (.arr vs)) {v : Value} (hv : v ∈ vs) : Unmarked v := fun x hx =>
  h x (.elem hv hx)

theorem unmarked_field {v : Value} (h : Unmarked v) : ∀ (fs : List Str) {w : Value}, fieldOf fs v = some w → Unmarked w := by
  intro fs
  induction fs generalizing v with
  | nil => intro w hw; cases hw; exact h
  | cons f fs ih =>
    intro w hw
    cases v with
    | map es =>
      obtain ⟨u, hu, hw⟩ := Option.bind_eq_some_iff.1 (show (Entries.getS es f).bind (fieldOf fs) = some w from hw)
      refine ih (fun x hx => ?_) hw
      obtain ⟨k, hk, _, rfl⟩ := Entries.get_mem hu
      exact h x (.val hk hx)
    | _ => cases hw

theorem refMapped_text {E : Env} {n : Nat} {C : Ctx} {p : List PathPiece} (hp : ∀ x ∈ p, x.Ok) (hv : ∀ x v, C.scope.get x = some v → Unmarked v)
    (key d : Str) : ∀ vs : List Value, (∀ v ∈ vs, Unmarked v) →
    refMapped E (ref E none (n + 1)) C key (textWritten p) d vs = pure (vs.map (fun v =>
      .path (textWritten p) (join d (textMeant E (also C.scope key v) p)) (E.stat (join d (textMeant E (also C.scope key v) p)))))
  | [], _ => rfl
  | v :: vs, h => by
    have ht : refCfg E (ref E none (n + 1)) { C with scope := C.scope.withVar key v } (textWritten p) = pure (textMeant E (also C.scope key v) p) :=
      refCfg_text (C := { C with scope := C.scope.withVar key v }) hp (fun x w hw => by
        have hw : (if key = x then some v else C.scope.get x) = some w := hw
        split at hw
        · cases hw
          exact h v (List.mem_cons_self ..)
        · exact hv x w hw)
    rw [refMapped, ht, Ans.pure_bind, refMapped_text hp hv key d vs (fun w hw => h w (List.mem_cons_of_mem _ hw))]
    rfl

theorem refLocs_all {E : Env} {r : Ref} {C : Ctx} {d : Str} {α : Type} {f : α → Loc} {g : α → List Loc} : ∀ xs : List α,
    (∀ x ∈ xs, refLoc E r C d (f x) = pure (g x)) → refLocs E r C d (xs.map f) = pure (xs.flatMap g)
  | [], _ => rfl
  | x :: xs, h => by
    rw [List.map_cons, refLocs, h x (List.mem_cons_self ..), Ans.pure_bind, refLocs_all xs (fun y hy => h y (List.mem_cons_of_mem _ hy))]
    rfl

theorem refLocations_place {E : Env} {n : Nat} {C : Ctx} {pl : Whereabouts} (hp : ∀ p ∈ pl.texts, ∀ x ∈ p, x.Ok)
    (hm : ∀ x fs as p, pl = .mapped x fs as p → Name x ∧ (∀ f ∈ fs, Name f) ∧ as ≠ [])
    (hv : ∀ x v, C.scope.get x = some v → Unmarked v) (d : Str) :
    refLocations E (ref E none (n + 1)) C d (some pl.locs) = pure (some (pl.resolved E C.scope d)) := by
  have path : ∀ p, (∀ x ∈ p, x.Ok) → refLoc E (ref E none (n + 1)) C d (.path (textWritten p) [] false) =
      pure [.path (textWritten p) (join d (textMeant E C.scope p)) (E.stat (join d (textMeant E C.scope p)))] := fun p h => by
    unfold refLoc
    simp only [refCfg_text h hv, Ans.pure_bind]
  have glob : ∀ p, (∀ x ∈ p, x.Ok) → refLoc E (ref E none (n + 1)) C d (.glob (textWritten p)) =
      pure ((E.glob (join d (textMeant E C.scope p))).map (fun m => .path (textWritten p) m true)) := fun p h => by
    unfold refLoc
    simp only [refCfg_text h hv, Ans.pure_bind]
  suffices h : refLocs E (ref E none (n + 1)) C d pl.locs = pure (pl.resolved E C.scope d) by
    unfold refLocations
    simp only [h]
    rfl
  cases pl with
  | path p =>
    exact refLocs_all (E := E) (r := ref E none (n + 1)) (C := C) (d := d) (f := fun p => .path (textWritten p) [] false)
      (g := fun p => [.path (textWritten p) (join d (textMeant E C.scope p)) (E.stat (join d (textMeant E C.scope p)))]) [p] (fun x hx => by
      cases List.mem_singleton.1 hx
      exact path p (hp p (List.mem_singleton.2 rfl)))
  | paths ps =>
    rw [show (Whereabouts.paths ps).resolved E C.scope d = ps.flatMap (fun p => [.path (textWritten p) (join d (textMeant E C.scope p)) (E.stat (join d (textMeant E C.scope p)))]) from
      List.map_eq_flatMap]
    exact refLocs_all ps (fun p h => path p (hp p h))
  | glob p =>
    have := refLocs_all (E := E) (r := ref E none (n + 1)) (C := C) (d := d) (f := fun p => .glob (textWritten p))
      (g := fun p => (E.glob (join d (textMeant E C.scope p))).map (fun m => .path (textWritten p) m true)) [p] (fun x hx => by
      cases List.mem_singleton.1 hx
      exact glob p (hp p (List.mem_singleton.2 rfl)))
    rw [List.flatMap_singleton] at this
    exact this
  | globs ps => exact refLocs_all ps (fun p h => glob p (hp p h))
  | mapped x fs as p =>
    obtain ⟨h1, h2, _⟩ := hm x fs as p rfl
    have hvar : refVar (ref E none (n + 1)) C false (joinDots (x :: fs)) = pure ((C.scope.get x).bind (fieldOf fs)) := by
      unfold refVar
      rw [dots_key h1 h2, Ans.of_ok_bind]
      have hr : Key.root ⟨joinDots (x :: fs), (x :: fs).map .name⟩ = x := rfl
      simp only [hr]
      cases hg : C.scope.get x with
      | none => rfl
      | some v =>
        simp only
        rw [interp_unmarked false (hv x v hg)]
        show (pure (digParts (fs.map .name) v) : Ans (Option Value)) = _
        rw [digParts_fields]
        rfl
    have hel : ∀ v ∈ elementsOf C.scope x fs, Unmarked v := by
      intro v hv'
      unfold elementsOf at hv'
      cases ho : (C.scope.get x).bind (fieldOf fs) with
      | none => rw [ho] at hv'; cases hv'
      | some w =>
        rw [ho] at hv'
        obtain ⟨u, hu, hw⟩ := Option.bind_eq_some_iff.1 ho
        have hw := unmarked_field (hv x u hu) fs hw
        cases w with
        | str s => cases List.mem_singleton.1 hv'; exact hw
        | arr vs => exact unmarked_element hw hv'
        | _ => cases hv'
    have hr := fun vs h => refMapped_text (E := E) (n := n) (C := C) (p := p) (hp p (List.mem_singleton.2 rfl)) hv as d vs h
    have hloc : refLoc E (ref E none (n + 1)) C d (.mapped (joinDots (x :: fs)) as (textWritten p)) =
        pure ((Whereabouts.mapped x fs as p).resolved E C.scope d) := by
      unfold refLoc
      simp only [hvar, Ans.pure_bind]
      show _ = pure ((elementsOf C.scope x fs).map _)
      unfold elementsOf at hel ⊢
      generalize (C.scope.get x).bind (fieldOf fs) = o at hel ⊢
      cases o with
      | none => rfl
      | some v => cases v <;> exact hr _ hel
    have := refLocs_all (E := E) (r := ref E none (n + 1)) (C := C) (d := d) (f := fun _ => .mapped (joinDots (x :: fs)) as (textWritten p))
      (g := fun _ => (Whereabouts.mapped x fs as p).resolved E C.scope d) [()] (fun _ _ => hloc)
    rw [List.flatMap_singleton] at this
    exact this

/-- The defaults, resolved. -/
def resolvedPreset (E : Env) (sc : Scope) (p : Option Preset) : Entry :=
  { root := dir E.configPath, dataDir := (match p.bind Preset.dir with | some d => textMeant E sc d | none => theDataDir E),
    pluginDir := seenFrom (dir E.configPath) (thePluginDir E), options := some [],
    function := some (.dataHash, readerOf ((p.bind Preset.json).getD false)), name := (presetEntry E p).name }

theorem refCfg_reader {E : Env} {r : Ref} {C : Ctx} (j : Bool) : refCfg E r C (readerOf j) = pure (readerOf j) := refCfg_unmarked (fun h => by
  have := (hasMarker_iff _).2 h
  revert this; cases j <;> decide)

theorem refFunction_reader {E : Env} {r : Ref} {C : Ctx} {d : Option Entry} {j : Bool} (e : Entry) (h : e.function = some (.dataHash, readerOf j)) :
    refFunction E r C d e = pure e := by
  obtain ⟨_, _, _, _, _, _, _, _⟩ := e
  dsimp only at h
  subst h
  unfold refFunction
  simp only [refCfg_reader]
  rfl

theorem refPreset {E : Env} {sc : Scope} {p : Option Preset} (hd : ¬Marked (theDataDir E)) (hpd : ¬Marked (thePluginDir E))
    (hdir : ∀ d, p.bind Preset.dir = some d → textWritten d ≠ [] ∧ ∀ x ∈ d, x.Ok) (hv : ∀ x v, sc.get x = some v → Unmarked v) (n : Nat) (w : Within) :
    refResolve E (ref E none (n + 1)) ⟨sc, w⟩ none (presetEntry E p) = pure (resolvedPreset E sc p) := by
  cases p with
  | none => exact refDefaults_of hd hpd _ _
  | some p =>
    have h1 : refFunction E (ref E none (n + 1)) ⟨sc, w⟩ none (presetEntry E (some p)) =
        pure { presetEntry E (some p) with function := some (.dataHash, readerOf (p.json.getD false)) } := by
      cases hj : p.json with
      | none =>
        unfold refFunction presetEntry
        simp only [hj]
        rfl
      | some j =>
        have he : presetEntry E (some p) = { presetEntry E (some p) with function := some (.dataHash, readerOf j) } := by
          unfold presetEntry
          simp only [hj]
          rfl
        rw [he]
        exact refFunction_reader _ rfl
    have h2 : refFunction E (ref E none (n + 1)) ⟨sc, w⟩ none { presetEntry E (some p) with function := some (.dataHash, readerOf (p.json.getD false)) } =
        pure { presetEntry E (some p) with function := some (.dataHash, readerOf (p.json.getD false)) } := refFunction_reader _ rfl
    unfold refResolve
    rw [h1, Ans.pure_bind, h2, Ans.pure_bind]
    have h3 : refDir E (ref E none (n + 1)) ⟨sc, w⟩ ((p.dir.map textWritten).getD []) ((none : Option Entry).map (·.dataDir)) E.cfg.defaultDataDir =
        pure (match p.dir with | some d => textMeant E sc d | none => theDataDir E) := by
      unfold refDir
      cases hd : p.dir with
      | none => rfl
      | some d =>
        have := hdir d hd
        rw [if_neg (show ¬((some d).map textWritten).getD [] = [] from this.1)]
        exact refCfg_text (C := ⟨sc, w⟩) this.2 hv
    have h3' : refDir E (ref E none (n + 1)) ⟨sc, w⟩ (presetEntry E (some p)).dataDir ((none : Option Entry).map (·.dataDir)) E.cfg.defaultDataDir = _ := h3
    simp only [h3', Ans.pure_bind]
    rfl

theorem refStep {E : Env} {sc : Scope} {rs : List Rung} {p : Option Preset} {ss : List Step} (ho : Stepped E rs p ss)
    (hv : ∀ x v, sc.get x = some v → Unmarked v) {r : Step} (hr : r ∈ ss) (n : Nat) (w : Within) :
    refResolve E (ref E none (n + 1)) ⟨sc, w⟩ (some (resolvedPreset E sc p)) (stepEntry (dir E.configPath) r) =
      pure (resolvedRung E sc (r.filled p)) := by
  have h1 : refFunction E (ref E none (n + 1)) ⟨sc, w⟩ (some (resolvedPreset E sc p)) (stepEntry (dir E.configPath) r) =
      pure { stepEntry (dir E.configPath) r with function := some (.dataHash, (r.filled p).reader) } := by
    cases hj : r.json with
    | none =>
      have : (r.filled p).reader = readerOf ((p.bind Preset.json).getD false) := by
        unfold Rung.reader Step.filled
        rw [hj]; rfl
      rw [this]
      unfold refFunction stepEntry resolvedPreset
      simp only [hj]
      rfl
    | some j =>
      have : (r.filled p).reader = readerOf j := by
        unfold Rung.reader Step.filled
        rw [hj]; rfl
      rw [this]
      have he : stepEntry (dir E.configPath) r = { stepEntry (dir E.configPath) r with function := some (.dataHash, readerOf j) } := by
        unfold stepEntry
        simp only [hj]
        rfl
      rw [he]
      exact refFunction_reader _ rfl
  have h2 : refFunction E (ref E none (n + 1)) ⟨sc, w⟩ (some (resolvedPreset E sc p))
      { stepEntry (dir E.configPath) r with function := some (.dataHash, (r.filled p).reader) } =
      pure { stepEntry (dir E.configPath) r with function := some (.dataHash, (r.filled p).reader) } := refFunction_reader _ rfl
  unfold refResolve
  rw [h1, Ans.pure_bind, h2, Ans.pure_bind]
  have ht := (ho.texts r hr).2
  have h3 : refDir E (ref E none (n + 1)) ⟨sc, w⟩ (stepEntry (dir E.configPath) r).dataDir ((some (resolvedPreset E sc p)).map (·.dataDir)) E.cfg.defaultDataDir =
      pure (match (r.filled p).dir with | some d => textMeant E sc d | none => theDataDir E) := by
    unfold refDir
    show (if (r.dir.map textWritten).getD [] = [] then _ else _) = pure (match r.dir.or (p.bind Preset.dir) with | some d => textMeant E sc d | none => theDataDir E)
    cases hd : r.dir with
    | none => rfl
    | some d =>
      have := ht d (by simp [hd])
      rw [if_neg (show ¬((some d).map textWritten).getD [] = [] from this.1)]
      have hd' : (stepEntry (dir E.configPath) r).dataDir = textWritten d := by
        show (r.dir.map textWritten).getD [] = _
        rw [hd]; rfl
      rw [hd']
      exact refCfg_text (C := ⟨sc, w⟩) this.2 hv
  have h4 : ∀ d, refLocations E (ref E none (n + 1)) ⟨sc, w⟩ d (stepEntry (dir E.configPath) r).locations = pure (some (r.place.resolved E sc d)) := fun d =>
    refLocations_place (fun p hp => (ht p (by simp [hp])).2) (ho.mapped r hr) hv d
  have h3' := h3
  simp only [h3', Ans.pure_bind, h4]
  rfl

theorem refSteps {E : Env} {sc : Scope} {rs : List Rung} {p : Option Preset} {ss : List Step} (ho : Stepped E rs p ss)
    (hv : ∀ x v, sc.get x = some v → Unmarked v) (n : Nat) (w : Within) :
    refResolveAll E (ref E none (n + 1)) ⟨sc, w⟩ (resolvedPreset E sc p) (ss.map (stepEntry (dir E.configPath))) = pure (rs.map (resolvedRung E sc)) := by
  have : ∀ ms : List Step, (∀ m ∈ ms, m ∈ ss) →
      refResolveAll E (ref E none (n + 1)) ⟨sc, w⟩ (resolvedPreset E sc p) (ms.map (stepEntry (dir E.configPath))) =
        pure ((ms.map (Step.filled p)).map (resolvedRung E sc)) := by
    intro ms hm
    induction ms with
    | nil => rfl
    | cons m ms ih =>
      rw [List.map_cons, refResolveAll, refStep ho hv (hm m (List.mem_cons_self ..)), Ans.pure_bind, ih (fun x hx => hm x (List.mem_cons_of_mem _ hx))]
      rfl
  rw [ho.filled]
  exact this ss (fun _ h => h)

/-! ### Data -/

/-- The level of a file. -/
def Spec.Rung.level (E : Env) (r : Rung) (f : Str) : Level := ⟨f, [.text f], r.dataIn E f⟩

theorem refAt_file {E : Env} {sc : Scope} {rs : List Rung} (ho : Laddered E sc rs) {r : Rung} (hr : r ∈ rs) {f : Str} (hf : f ∈ r.files E sc)
    (rf : Ref) (C : Ctx) (k : Key) (o : Str) :
    refAt E rf C k (resolvedRung E sc r) (.path o f (E.stat f)) = readAs E rf C ((r.level E f).has k.root) := by
  cases hs : E.stat f with
  | false =>
    show (pure none : Ans (Option Value)) = _
    unfold Level.has Rung.level Rung.dataIn
    simp only [hs]
    rfl
  | true =>
    obtain ⟨es, he, _⟩ := ho.data r hr f hf hs
    have hd : r.dataIn E f = some es := by
      unfold Rung.dataIn
      rw [if_pos hs, he]
    have hg : (r.level E f).has k.root = Entries.getS es k.root := by
      show (r.dataIn E f).bind _ = _
      rw [hd]; rfl
    have read : ∀ rd : Str → FileRes, fileData E rd (refOpts (resolvedRung E sc r) (some (.path o f true))) =
        match rd f with
        | .missing => .ok []
        | .err e => .panic e
        | .value (.map es) => .ok es
        | .value _ => .panic (.notHash f) := fun rd => rfl
    have hh : refHash E (resolvedRung E sc r) r.reader (refOpts (resolvedRung E sc r) (some (.path o f true))) = .ok es := by
      cases hj : r.json with
      | false =>
        have hn : r.reader = "yaml_data".toList := by rw [Rung.reader, hj]; rfl
        rw [hj] at he
        rw [hn, refHash, if_pos rfl, read, (show E.readYaml f = _ from he)]
      | true =>
        have hn : r.reader = "json_data".toList := by rw [Rung.reader, hj]; rfl
        rw [hj] at he
        rw [hn, refHash, if_neg (by decide), if_pos rfl, read, (show E.readJson f = _ from he)]
    show refSource E rf C k (resolvedRung E sc r) (some (.path o f true)) = _
    unfold refSource
    show (Ans.of (refHash E (resolvedRung E sc r) r.reader (refOpts (resolvedRung E sc r) (some (.path o f true)))) >>= _) = _
    rw [hh, Ans.of_ok_bind, hg]
    cases Entries.getS es k.root <;> rfl

theorem sources_rung {E : Env} {sc : Scope} {rs : List Rung} (ho : Laddered E sc rs) {r : Rung} (hr : r ∈ rs) (rf : Ref) (C : Ctx) (k : Key) :
    sourcesOf E rf C k (resolvedRung E sc r) = (r.levels E sc).map (fun l => readAs E rf C (l.has k.root)) := by
  have hat : ∀ f ∈ r.files E sc, ∀ o, refAt E rf C k (resolvedRung E sc r) (.path o f (E.stat f)) = readAs E rf C ((r.level E f).has k.root) := fun f hf o =>
    refAt_file ho hr hf rf C k o
  show (r.place.resolved E sc (r.dataDir E sc)).map (refAt E rf C k (resolvedRung E sc r)) = ((r.files E sc).map (r.level E)).map _
  have hat' : ∀ f ∈ r.files E sc, E.stat f = true → ∀ o, refAt E rf C k (resolvedRung E sc r) (.path o f true) = readAs E rf C ((r.level E f).has k.root) := fun f hf h o => by
    rw [← hat f hf o, h]
  rw [List.map_map]
  unfold Rung.files at hat hat' ⊢
  generalize resolvedRung E sc r = e at hat hat' ⊢
  cases hp : r.place with
  | path p =>
    rw [hp] at hat
    exact congrArg (· :: []) (hat _ (List.mem_singleton.2 rfl) _)
  | paths ps =>
    rw [hp] at hat
    simp only [Whereabouts.resolved, List.map_map]
    exact List.map_congr_left (fun p h => hat _ (List.mem_map.2 ⟨p, h, rfl⟩) _)
  | glob p =>
    rw [hp] at hat'
    simp only [Whereabouts.resolved, List.map_map]
    exact List.map_congr_left (fun f h => hat' f h (ho.matched _ f h) _)
  | globs ps =>
    rw [hp] at hat'
    simp only [Whereabouts.resolved, List.map_flatMap, List.map_map]
    refine List.flatMap_congr (fun p h => List.map_congr_left (fun f hf => hat' f (List.mem_flatMap.2 ⟨p, h, hf⟩) (ho.matched _ f hf) _))
  | mapped x fs as p =>
    rw [hp] at hat
    simp only [Whereabouts.resolved, List.map_map]
    exact List.map_congr_left (fun v h => hat _ (List.mem_map.2 ⟨v, h, rfl⟩) _)

/-- A level without data. -/
def blank : Level := ⟨[], [], none⟩

theorem values_mem {ls : List Level} {key : Str} {l : Level} (h : l ∈ ls) {v : Value} (hv : l.has key = some v) : v ∈ valuesOf ls key :=
  List.mem_filterMap.2 ⟨l, h, hv⟩

theorem rungs_WF {E : Env} {sc : Scope} {rs : List Rung} (ho : Laddered E sc rs) {key : Str} {v : Value} (h : v ∈ valuesOf (levelsIn E sc rs) key) : WF v := by
  obtain ⟨l, hl, hv⟩ := List.mem_filterMap.1 h
  obtain ⟨r, hr, hl⟩ := List.mem_flatMap.1 hl
  obtain ⟨f, hf, rfl⟩ := List.mem_map.1 hl
  cases hs : E.stat f with
  | false =>
    simp only [Rung.dataIn, hs, Bool.false_eq_true, if_false] at hv
    cases hv
  | true =>
    obtain ⟨es, he, hw⟩ := ho.data r hr f hf hs
    simp only [Rung.dataIn, hs, if_true, he] at hv
    exact Entries.WF_of_get hw hv

/-- A single value merged by `unique` is an array without arrays in it and without equal elements. -/
def OneIsSet (vs : List Value) : Prop := ∀ v, vs = [v] → ∃ es, v = .arr es ∧ (∀ e ∈ es, ∀ xs, e ≠ .arr xs) ∧ es.Pairwise (fun a b => equals a b = false)

theorem single_combined {st : Strategy} {vs : List Value} (h : st = .unique → OneIsSet vs) : (refCombine st vs).map st.single = refCombine st vs := by
  cases st with
  | unique =>
    match vs, h rfl with
    | [], _ => rfl
    | [v], h =>
      obtain ⟨es, rfl, f1, f2⟩ := h v rfl
      show some (Value.arr (unique (flatten (flatten es)))) = some (Value.arr (flatten es))
      rw [flatten_flat es f1, flatten_flat es f1, unique_id f2]
    | v :: w :: vs, _ =>
      have e : refCombine .unique (v :: w :: vs) = some (.arr (unique (flatten (v :: w :: vs)))) := by
        have : Strategy.unique.convertValue v = .arr (flattenV v) := by simp [Strategy.convertValue, convertUnique_eq]
        simp only [refCombine, this]
        rw [unique_fold _ _ (flattenV_no_arr v) (by simp), ← flatten]
      rw [e]
      show some (Value.arr (unique (flatten (unique (flatten (v :: w :: vs)))))) = _
      rw [flatten_flat _ (fun x hx => flatten_no_arr _ x (unique_mem hx)), unique_id (unique_pairwise _)]
  | _ => cases refCombine _ vs <;> rfl

theorem single_convert {st : Strategy} {o : Option Value} (h : st = .unique → OneIsSet o.toList) : o.map st.single = refCombine st o.toList := by
  cases o with
  | none => rfl
  | some v =>
    cases st with
    | unique =>
      obtain ⟨es, rfl, f1, f2⟩ := h rfl v rfl
      show some (Value.arr (unique (flatten es))) = some (Value.arr (flatten es))
      rw [flatten_flat es f1, unique_id f2]
    | _ => rfl

theorem sources_rungs {E : Env} {sc : Scope} {rs : List Rung} (ho : Laddered E sc rs) (rf : Ref) (C : Ctx) (k : Key) :
    (rs.map (resolvedRung E sc)).flatMap (sourcesOf E rf C k) = (levelsIn E sc rs).map (fun l => readAs E rf C (l.has k.root)) := by
  unfold levelsIn
  rw [List.flatMap_map, List.map_flatMap]
  exact List.flatMap_congr (fun r hr => sources_rung ho hr rf C k)

theorem hierarchy_read {E : Env} {sc : Scope} {rs : List Rung} (ho : Laddered E sc rs) (rf : Ref) (C : Ctx) (k : Key) (st : Strategy)
    {ns : List Level} (hr : (levelsIn E sc rs).map (fun l => readAs E rf C (l.has k.root)) = ns.map (fun n => pure (n.has k.root)))
    (hw : ∀ v ∈ valuesOf ns k.root, WF v) (hn : NoneBetween st (valuesOf ns k.root)) (h1 : st = .unique → OneIsSet (valuesOf ns k.root)) :
    refHierarchy E rf C k st (rs.map (resolvedRung E sc)) = pure (outcome st (blank :: blank :: ns) k.root) := by
  have hsrc : (rs.map (resolvedRung E sc)).flatMap (sourcesOf E rf C k) = ns.map (fun l => pure (l.has k.root)) := (sources_rungs ho rf C k).trans hr
  by_cases hst : st = .first
  · subst hst
    show refFirst _ = _
    rw [hierarchy_first, hsrc]
    exact refFirst_pure k.root _
  have hout : outcome st (blank :: blank :: ns) k.root = refCombine st (valuesOf (ns) k.root) := by
    cases st with
    | first => exact absurd rfl hst
    | _ => rfl
  by_cases hlen : rs.length = 1
  · match rs, hlen, hsrc with
    | [r], _, hsrc =>
      have hone : sourcesOf E rf C k (resolvedRung E sc r) = ns.map (fun l => pure (l.has k.root)) := by simpa using hsrc
      rw [hout]
      have hmerge : ∀ x : Ans (Option Value), refMerge st [x] = (x >>= fun v => pure (v.map st.single)) := fun x => by
        cases st with
        | first => exact absurd rfl hst
        | _ => rfl
      show refMerge st [refEntry E rf C k st (resolvedRung E sc r)] = _
      rw [hmerge]
      have hentry : ∀ ls : List Loc, refEntry E rf C k st { resolvedRung E sc r with locations := some ls } =
          match ls with | [l] => refAt E rf C k { resolvedRung E sc r with locations := some ls } l | ls => refMerge st (ls.map (refAt E rf C k { resolvedRung E sc r with locations := some ls })) := by
        intro ls
        match ls with
        | [] => rfl
        | [l] => rfl
        | a :: b :: ls => rfl
      have hentry := hentry (r.place.resolved E sc (r.dataDir E sc))
      have hsrc : (r.place.resolved E sc (r.dataDir E sc)).map (refAt E rf C k (resolvedRung E sc r)) = (ns).map (fun l => pure (l.has k.root)) := hone
      change refEntry E rf C k st (resolvedRung E sc r) = match r.place.resolved E sc (r.dataDir E sc) with
        | [l] => refAt E rf C k (resolvedRung E sc r) l
        | ls => refMerge st (ls.map (refAt E rf C k (resolvedRung E sc r))) at hentry
      rw [hentry]
      generalize r.place.resolved E sc (r.dataDir E sc) = locs at hsrc ⊢
      generalize resolvedRung E sc r = e at hsrc ⊢
      match locs, hsrc with
      | [], hsrc =>
        have : ns = [] := by simpa using hsrc.symm
        rw [this]
        show (refMerge st [] >>= _) = _
        cases st <;> rfl
      | [l], hsrc =>
        obtain ⟨x, hx⟩ : ∃ x, ns = [x] := List.length_eq_one_iff.1 (by simpa using (congrArg List.length hsrc).symm)
        rw [hx] at hsrc h1 ⊢
        have hsrc : refAt E rf C k e l = pure (x.has k.root) := List.head_eq_of_cons_eq hsrc
        have hv : valuesOf [x] k.root = (x.has k.root).toList := by rw [valuesOf_cons]; simp [valuesOf]
        rw [hv] at h1 ⊢
        show (refAt E rf C k e l >>= _) = _
        rw [hsrc, Ans.pure_bind, single_convert h1]
      | a :: b :: locs, hsrc =>
        show (refMerge st ((a :: b :: locs).map (refAt E rf C k e)) >>= _) = _
        rw [refMerge_found hst (by simp), hsrc, refFound_pure, Ans.pure_bind, Ans.pure_bind, single_combined h1]
  · have hc : NoClash E rf C k st (rs.map (resolvedRung E sc)) := by
      intro vs h
      rw [hsrc, refFound_pure] at h
      cases h
      exact ⟨hw, hn⟩
    rw [hierarchy_flat E rf C k (by simpa using hlen) hc, hsrc, hout]
    cases st with
    | first => exact absurd rfl hst
    | _ =>
      show (refFound _ >>= _) = _
      rw [refFound_pure, Ans.pure_bind]

theorem hierarchy_rungs {E : Env} {sc : Scope} {rs : List Rung} (ho : Laddered E sc rs) (rf : Ref) (C : Ctx) (k : Key) (st : Strategy)
    (hu : ∀ v ∈ valuesOf (levelsIn E sc rs) k.root, Unmarked v) (hn : NoneBetween st (valuesOf (levelsIn E sc rs) k.root))
    (h1 : st = .unique → OneIsSet (valuesOf (levelsIn E sc rs) k.root)) :
    refHierarchy E rf C k st (rs.map (resolvedRung E sc)) = pure (outcome st (blank :: blank :: levelsIn E sc rs) k.root) :=
  hierarchy_read ho rf C k st (List.map_congr_left (fun _ hl => readAs_unmarked (fun v hv => hu v (values_mem hl hv))))
    (fun _ hv => rungs_WF ho hv) hn h1

theorem refSite_rungs {E : Env} {sc : Scope} {rs : List Rung} (ho : Laddered E sc rs) (n : Nat)
    (hu : ∀ v ∈ valuesOf (levelsIn E sc rs) "lookup_options".toList, Unmarked v)
    (hn : Together (valuesOf (levelsIn E sc rs) "lookup_options".toList)) :
    (Ans.of (newCfg E.cfg E.configPath (E.readYaml E.configPath)) >>= refSite E (ref E none (n + 1)) ⟨sc, .call⟩) =
      pure ⟨rs.map (resolvedRung E sc), asMap (outcome (.deep []) (blank :: blank :: levelsIn E sc rs) "lookup_options".toList)⟩ := by
  obtain ⟨p, ss, hs⟩ := rungs_stepped ho
  rw [newCfg_steps hs, Ans.of_ok_bind]
  unfold refSite refLevels
  simp only [refPreset ho.dataDir ho.pluginDir hs.dir ho.vars, Ans.pure_bind, refSteps hs ho.vars]
  have : refResolveAll E (ref E none (n + 1)) ⟨sc, .call⟩ (resolvedPreset E sc p) [] = pure [] := rfl
  rw [this, Ans.pure_bind, hierarchy_rungs ho _ _ lookupOptionsKey (.deep []) hu (by exact hn) nofun]
  rfl

end Hiera
