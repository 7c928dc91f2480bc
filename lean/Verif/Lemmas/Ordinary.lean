/- Lemmas for ordinary set-ups: the paths of levels, the configuration file, and what the reference makes of them. -/
import Verif.Spec.Ordinary
import Verif.Lemmas.Separate
import Verif.Lemmas.Reference
import Verif.Lemmas.Replaced
import Verif.Props.Merge

set_option autoImplicit false

namespace Hiera

open Value Spec

/-! ### Names -/

theorem name_char {x : Str} (h : Name x) : ∀ c ∈ x, c.isAlphanum = true ∨ c = '_' := by
  match x, h with
  | c :: cs, ⟨h1, h2⟩ =>
    intro d hd
    rcases List.mem_cons.1 hd with rfl | hd
    · exact .inl (by simp [Char.isAlphanum, h1])
    · exact h2 d hd

theorem not_word {c : Char} (h : c.isAlphanum = false) (h' : c ≠ '_') {x : Str} (hx : Name x) : c ∉ x := by
  intro hc
  rcases name_char hx c hc with h1 | h1
  · rw [h] at h1; cases h1
  · exact h' h1

theorem name_ne {x : Str} (h : Name x) : x ≠ [] := by
  rintro rfl; exact h

theorem name_unquoted {x : Str} (h : Name x) : Unquoted x := fun c hc =>
  ⟨fun e => not_word (c := '\'') (by decide) (by decide) h (e ▸ hc), fun e => not_word (c := '"') (by decide) (by decide) h (e ▸ hc),
    fun e => not_word (c := '.') (by decide) (by decide) h (e ▸ hc)⟩

theorem alpha_not_int {c : Char} {cs : Str} (h1 : c.isAlpha = true) (i : Int) : ¬IsInt32 (c :: cs) i := by
  rintro ⟨sign, ds, he, hne, hd, hs, _⟩
  have hc : sign = [] ∨ c = '+' ∨ c = '-' := by
    rcases hs with ⟨rfl | rfl, _⟩ | ⟨rfl, _⟩
    · exact .inl rfl
    · right; left; simp at he; exact he.1
    · right; right; simp at he; exact he.1
  rcases hc with rfl | rfl | rfl
  · match ds, hne with
    | d :: ds, _ =>
      simp at he
      have := hd d (List.mem_cons_self ..)
      rw [← he.1] at this
      simp only [Char.isAlpha, Char.isUpper, Char.isLower, Bool.or_eq_true, Bool.and_eq_true, decide_eq_true_eq, UInt32.le_iff_toNat_le, ge_iff_le] at h1
      change (65 ≤ c.toNat ∧ c.toNat ≤ 90) ∨ (97 ≤ c.toNat ∧ c.toNat ≤ 122) at h1
      omega
  · exact absurd h1 (by decide)
  · exact absurd h1 (by decide)

theorem name_not_int {x : Str} (h : Name x) (i : Int) : ¬IsInt32 x i := by
  match x, h with
  | _ :: _, ⟨h1, _⟩ => exact alpha_not_int h1 i

theorem joinDots_mem {c : Char} : ∀ {xs : List Str}, c ∈ joinDots xs → c = '.' ∨ ∃ x ∈ xs, c ∈ x
  | [], h => by cases h
  | [x], h => .inr ⟨x, by simp, h⟩
  | x :: y :: ys, h => by
    rw [joinDots] at h
    · rcases List.mem_append.1 h with h | h
      · exact .inr ⟨x, by simp, h⟩
      · rcases List.mem_cons.1 h with h | h
        · exact .inl h
        · rcases joinDots_mem h with h | ⟨z, hz, h⟩
          · exact .inl h
          · exact .inr ⟨z, List.mem_cons_of_mem _ hz, h⟩
    · simp

theorem name_segment {y : Str} (h : Name y) : KeyPart y := ⟨name_unquoted h, name_ne h, name_not_int h⟩

theorem segments_key {xs : List Str} (hne : xs ≠ []) (all : ∀ y ∈ xs, KeyPart y) : newKey (joinDots xs) = .ok ⟨joinDots xs, xs.map .name⟩ := by
  obtain ⟨ps, h1, h2⟩ := C02_dots xs (fun y hy => (all y hy).1) hne (fun y hy => (all y hy).2.1)
    (fun y hy => (all y (List.mem_of_mem_head? hy)).2.2)
  rw [h1]
  congr 2
  have : ∀ {ys : List Str} {qs : List Part}, (∀ y ∈ ys, KeyPart y) → List.Forall₂ PlainPart ys qs → qs = ys.map .name := by
    intro ys qs hy h
    induction h with
    | nil => rfl
    | @cons y q ys qs h1 _ ih =>
      rw [List.map_cons, ih (fun z hz => hy z (List.mem_cons_of_mem _ hz))]
      cases h1 with
      | index i hi => exact absurd hi ((hy y (List.mem_cons_self ..)).2.2 i)
      | name _ => rfl
  exact this all h2

section
variable {x : Str} {fs : List Str} (hx : Name x) (hf : ∀ f ∈ fs, Name f)
include hx hf

theorem dots_names : ∀ y ∈ x :: fs, Name y := fun y hy => by
  rcases List.mem_cons.1 hy with rfl | hy
  · exact hx
  · exact hf y hy

theorem not_in_dots {c : Char} (h : c.isAlphanum = false) (h' : c ≠ '_') (hd : c ≠ '.') : c ∉ joinDots (x :: fs) := by
  intro hc
  rcases joinDots_mem hc with h1 | ⟨y, hy, h1⟩
  · exact hd h1
  · exact not_word h h' (dots_names hx hf y hy) h1

theorem dots_head : ∃ c cs, joinDots (x :: fs) = c :: cs ∧ c.isAlpha = true := by
  match x, hx with
  | c :: cs, ⟨h, _⟩ =>
    cases fs with
    | nil => exact ⟨c, cs, rfl, h⟩
    | cons f fs => exact ⟨c, cs ++ '.' :: joinDots (f :: fs), by simp [joinDots], h⟩

theorem space_not_in_dots {c : Char} (h : c ∈ joinDots (x :: fs)) : isSpace c = false := by
  have : c = '.' ∨ c.isAlphanum = true ∨ c = '_' := by
    rcases joinDots_mem h with h1 | ⟨y, hy, h1⟩
    · exact .inl h1
    · exact .inr (name_char (dots_names hx hf y hy) c h1)
  rcases this with rfl | h | rfl
  · decide
  · simp only [Char.isAlphanum, Char.isAlpha, Char.isDigit, Char.isUpper, Char.isLower, Bool.or_eq_true, Bool.and_eq_true, decide_eq_true_eq, UInt32.le_iff_toNat_le, ge_iff_le] at h
    change ((65 ≤ c.toNat ∧ c.toNat ≤ 90) ∨ (97 ≤ c.toNat ∧ c.toNat ≤ 122)) ∨ (48 ≤ c.toNat ∧ c.toNat ≤ 57) at h
    unfold isSpace
    simp only [Bool.or_eq_false_iff, Bool.and_eq_false_iff, decide_eq_false_iff_not, beq_eq_false_iff_ne]
    omega
  · decide

theorem dots_trimmed : trimSpace (joinDots (x :: fs)) = joinDots (x :: fs) := by
  refine trimmed_unique ⟨⟨[], [], by simp, by simp, by simp⟩, fun c hc => ?_, fun c hc => ?_⟩
  · exact (isSpace_false_iff c).1 (space_not_in_dots hx hf (List.mem_of_mem_head? hc))
  · exact (isSpace_false_iff c).1 (space_not_in_dots hx hf (List.mem_of_mem_getLast? hc))

theorem dots_not_empty : emptyInterpolation (joinDots (x :: fs)) = false := by
  obtain ⟨c, cs, he, hc⟩ := dots_head hx hf
  rw [he]
  cases h : emptyInterpolation (c :: cs) with
  | false => rfl
  | true =>
    rw [emptyInterpolation_iff] at h
    have : ∀ y ∈ emptyForms, y.head?.any Char.isAlpha = false := by decide
    have := this _ h
    simp [hc] at this

theorem dots_method (a : Bool) : getMethodAndData (joinDots (x :: fs)) a = .ok (.scope, joinDots (x :: fs)) := by
  unfold getMethodAndData
  rw [methodMatch_none]
  rintro n arg ⟨_, _, _, q, _, _, he⟩
  exact not_in_dots hx hf (c := '(') (by decide) (by decide) (by decide) (by rw [he]; simp)

theorem dots_key : newKey (joinDots (x :: fs)) = .ok ⟨joinDots (x :: fs), (x :: fs).map .name⟩ :=
  segments_key (by simp) (fun y hy => name_segment (dots_names hx hf y hy))
end

theorem digParts_fields : ∀ (fs : List Str) (v : Value), digParts (fs.map .name) v = fieldOf fs v
  | [], v => rfl
  | f :: fs, v => by
    cases v with
    | map es =>
      show (match Entries.getS es f with | some w => digParts (fs.map .name) w | none => none) = (Entries.getS es f).bind (fieldOf fs)
      cases Entries.getS es f with
      | none => rfl
      | some w => exact digParts_fields fs w
    | _ => rfl

/-! ### Paths -/

def Spec.PathPiece.toks : PathPiece → List Tok
  | .text t => t.map .chr
  | .var x fs => [.expr (joinDots (x :: fs))]

theorem text_splits {t : Str} (ht : '%' ∉ t) {u : Str} {ts : List Tok} (h : Splits u ts) : Splits (t ++ u) (t.map .chr ++ ts) := by
  induction t with
  | nil => exact h
  | cons c cs ih =>
    refine .chr ?_ (ih (fun hc => ht (List.mem_cons_of_mem _ hc)))
    rintro ⟨e, rest, _, he⟩
    injection he with he _
    exact ht (he ▸ List.mem_cons_self ..)

theorem pieces_splits : ∀ (ps : List PathPiece), (∀ p ∈ ps, p.Ok) → Splits (ps.flatMap PathPiece.written) (ps.flatMap PathPiece.toks)
  | [], _ => .nil
  | .text t :: ps, h => by
    have ih := pieces_splits ps (fun p hp => h p (List.mem_cons_of_mem _ hp))
    exact text_splits (h (.text t) (List.mem_cons_self ..)) ih
  | .var x fs :: ps, h => by
    have ih := pieces_splits ps (fun p hp => h p (List.mem_cons_of_mem _ hp))
    obtain ⟨h1, h2⟩ := h (.var x fs) (List.mem_cons_self ..)
    have := Splits.expr (not_in_dots h1 h2 (c := '}') (by decide) (by decide) (by decide)) ih
    simpa [List.flatMap_cons, PathPiece.written, PathPiece.toks] using this

theorem refText_text {E : Env} {r : Ref} {C : Ctx} (a : Bool) (t : Str) {ts : List Tok} {u : Str} (h : refText E r C a ts = pure u) :
    refText E r C a (t.map .chr ++ ts) = pure (t ++ u) := by
  induction t with
  | nil => exact h
  | cons c cs ih => rw [List.map_cons, List.cons_append, refText, ih]; rfl

mutual
theorem unmarked_of_plain : ∀ {v : Value}, Plain v → marked v = false
  | .str x, .str h => by
    rw [marked]
    cases hm : hasMarker x with
    | false => rfl
    | true => exact absurd ((hasMarker_iff x).1 hm) h
  | .arr _, .arr h => by rw [marked]; exact unmarkedL_of_plain h
  | .map _, .map h => by rw [marked]; exact unmarkedE_of_plain h
  | .null, _ => by simp [marked]
  | .bool _, _ => by simp [marked]
  | .int _, _ => by simp [marked]
  | .sensitive _, _ => by simp [marked]
  | .opaque _, _ => by simp [marked]
theorem unmarkedL_of_plain : ∀ {vs : List Value}, PlainL vs → markedL vs = false
  | [], _ => rfl
  | _ :: _, .cons h hs => by rw [markedL, unmarked_of_plain h, unmarkedL_of_plain hs]; rfl
theorem unmarkedE_of_plain : ∀ {es : List (Value × Value)}, PlainE es → markedE es = false
  | [], _ => rfl
  | (_, _) :: _, .cons h h' hs => by rw [markedE, unmarked_of_plain h, unmarked_of_plain h', unmarkedE_of_plain hs]; rfl
end

theorem unmarked_iff {v : Value} (h : Unmarked v) : marked v = false :=
  unmarked_of_plain (plain_of_clean (p := fun s => ¬Marked s) (fun _ h => h) v h)

theorem interp_unmarked {E : Env} {site : Option Site} {n : Nat} {C : Ctx} (a : Bool) {v : Value} (h : Unmarked v) :
    (ref E site (n + 1)).interp C a v = pure (some v) := refInterp_unmarked a (unmarked_iff h)

theorem refText_pieces {E : Env} {site : Option Site} {n : Nat} {C : Ctx} : ∀ (ps : List PathPiece), (∀ p ∈ ps, p.Ok) →
    (∀ x fs, PathPiece.var x fs ∈ ps → ∀ v, C.scope.get x = some v → Unmarked v) →
    refText E (ref E site (n + 1)) C false (ps.flatMap PathPiece.toks) = pure (ps.flatMap (PathPiece.meant E C.scope))
  | [], _, _ => rfl
  | .text t :: ps, h, hv =>
    refText_text false t (refText_pieces ps (fun p hp => h p (List.mem_cons_of_mem _ hp)) (fun x fs hx => hv x fs (List.mem_cons_of_mem _ hx)))
  | .var x fs :: ps, h, hv => by
    have ih := refText_pieces (E := E) (site := site) (n := n) ps (fun p hp => h p (List.mem_cons_of_mem _ hp)) (fun x fs hx => hv x fs (List.mem_cons_of_mem _ hx))
    obtain ⟨h1, h2⟩ := h (.var x fs) (List.mem_cons_self ..)
    have hp : refPiece E (ref E site (n + 1)) C false (joinDots (x :: fs)) = pure (PathPiece.meant E C.scope (.var x fs)) := by
      unfold refPiece
      rw [dots_trimmed h1 h2, dots_not_empty h1 h2, dots_method h1 h2]
      simp only [Bool.false_eq_true, if_false, Ans.of_ok_bind]
      unfold refVar
      rw [dots_key h1 h2, Ans.of_ok_bind]
      have hr : Key.root ⟨joinDots (x :: fs), (x :: fs).map .name⟩ = x := rfl
      simp only [hr]
      cases hg : C.scope.get x with
      | none => simp only [PathPiece.meant, hg]; rfl
      | some v =>
        simp only
        rw [interp_unmarked false (hv x fs (List.mem_cons_self ..) v hg)]
        show (pure (E.textOf (digParts (fs.map .name) v)) : Ans Str) = _
        rw [digParts_fields]
        simp only [PathPiece.meant, hg, Option.bind_some]
        cases fieldOf fs v with
        | none => rfl
        | some w => cases w <;> rfl
    show refText E (ref E site (n + 1)) C false (.expr (joinDots (x :: fs)) :: ps.flatMap PathPiece.toks) = _
    rw [refText, hp, Ans.pure_bind, ih]
    rfl

theorem refCfg_path {E : Env} {n : Nat} {sc : Scope} {ls : List Level} (ho : Ordinary E sc ls) {l : Level} (hl : l ∈ ls) (w : Within) :
    refCfg E (ref E none (n + 1)) ⟨sc, w⟩ l.written = pure (l.path.flatMap (PathPiece.meant E sc)) := by
  unfold refCfg
  have := pieces_splits l.path (ho.paths l hl).2
  rw [Level.written, tokens_eq this]
  exact refText_pieces l.path (ho.paths l hl).2 (ho.vars l hl)

theorem refCfg_unmarked {E : Env} {r : Ref} {C : Ctx} {x : Str} (h : ¬Marked x) : refCfg E r C x = pure x := by
  unfold refCfg
  rw [tokens_eq (splits_unmarked h), refText_chrs]

/-! ### The configuration -/

/-- The entry of a level, before it is resolved. -/
def entryOf (root : Str) (l : Level) : Entry := { root := root, name := l.name, locations := some [.path l.written [] false] }

theorem createEntry_level (E : Env) (root : Str) (l : Level) :
    createEntry E.cfg root l.name [(.str "name".toList, .str l.name), (.str "path".toList, .str l.written)] = .ok (entryOf root l) := rfl

theorem createHierarchy_levels (E : Env) (root : Str) : ∀ (ls : List Level) (seen : List Str), (∀ l ∈ ls, l.name ∉ seen) →
    (ls.map Level.name).Nodup →
    createHierarchyLoop E.cfg root seen (ls.map (fun l => .map [(.str "name".toList, .str l.name), (.str "path".toList, .str l.written)])) =
      .ok (ls.map (entryOf root))
  | [], _, _, _ => rfl
  | l :: ls, seen, h, hd => by
    have step : ∀ vs, createHierarchyLoop E.cfg root seen (.map [(.str "name".toList, .str l.name), (.str "path".toList, .str l.written)] :: vs) =
        if l.name ∈ seen then .panic (.duplicateName l.name)
        else (createEntry E.cfg root l.name [(.str "name".toList, .str l.name), (.str "path".toList, .str l.written)]).bind (fun e =>
          (createHierarchyLoop E.cfg root (l.name :: seen) vs).bind (fun es => .ok (e :: es))) := fun _ => rfl
    rw [List.map_cons, step, if_neg (h l (List.mem_cons_self ..)), createEntry_level, Res.bind]
    rw [List.map_cons, List.nodup_cons] at hd
    rw [createHierarchy_levels E root ls (l.name :: seen) (fun m hm hs => ?_) hd.2]
    · rfl
    · rcases List.mem_cons.1 hs with hs | hs
      · exact hd.1 (hs ▸ List.mem_map.2 ⟨m, hm, rfl⟩)
      · exact h m (List.mem_cons_of_mem _ hm) hs

theorem isCfg_levels (ls : List Level) (h : ∀ l ∈ ls, l.name ≠ [] ∧ l.written ≠ []) :
    isCfg [(.str "version".toList, .int 5),
    (.str "hierarchy".toList, .arr (ls.map (fun l => .map [(.str "name".toList, .str l.name), (.str "path".toList, .str l.written)])))] = true := by
  have hs : isEntryArray (.arr (ls.map (fun l => .map [(.str "name".toList, .str l.name), (.str "path".toList, .str l.written)]))) = true := by
    simp only [isEntryArray, List.all_map, List.all_eq_true]
    intro l hl
    obtain ⟨h1, h2⟩ := h l hl
    have r : ∀ x : Str, x ≠ [] → isRString (.str x) = true := fun x hx => by cases x <;> simp_all [isRString]
    have m1 : memberOK true "name".toList (.str l.name) = isRString (.str l.name) := rfl
    have m2 : memberOK true "path".toList (.str l.written) = isRString (.str l.written) := rfl
    show ((memberOK true "name".toList (.str l.name) && (memberOK true "path".toList (.str l.written) && true)) && true) = true
    rw [m1, m2, r _ h1, r _ h2]; rfl
  show (true && (true && (isEntryArray (.arr (ls.map (fun l => .map [(.str "name".toList, .str l.name), (.str "path".toList, .str l.written)]))) && true))) = true
  rw [hs]; rfl

theorem newCfg_levels {E : Env} {sc : Scope} {ls : List Level} (ho : Ordinary E sc ls) :
    newCfg E.cfg E.configPath (E.readYaml E.configPath) = .ok ⟨dir E.configPath, E.configPath,
      makeDefaultConfig E.cfg (dir E.configPath), ls.map (entryOf (dir E.configPath)), []⟩ := by
  rw [ho.config]
  unfold configOf newCfg
  simp only
  rw [isCfg_levels ls (fun l hl => ⟨ho.named l hl, (ho.paths l hl).1⟩)]
  simp only [if_true]
  unfold createConfig
  have h1 : Entries.getS [(.str "version".toList, .int 5),
    (.str "hierarchy".toList, .arr (ls.map (fun l => .map [(.str "name".toList, .str l.name), (.str "path".toList, .str l.written)])))] "defaults".toList = none := rfl
  have h2 : Entries.getS [(.str "version".toList, .int 5),
    (.str "hierarchy".toList, .arr (ls.map (fun l => .map [(.str "name".toList, .str l.name), (.str "path".toList, .str l.written)])))] "hierarchy".toList =
      some (.arr (ls.map (fun l => .map [(.str "name".toList, .str l.name), (.str "path".toList, .str l.written)]))) := rfl
  have h3 : Entries.getS [(.str "version".toList, .int 5),
    (.str "hierarchy".toList, .arr (ls.map (fun l => .map [(.str "name".toList, .str l.name), (.str "path".toList, .str l.written)])))] "default_hierarchy".toList = none := rfl
  simp only [h1, h2, h3, Res.bind, createHierarchy, createHierarchy_levels E _ ls [] (by simp) ho.distinct]

/-- The entry of a level, resolved. -/
def resolvedOf (E : Env) (sc : Scope) (l : Level) : Entry :=
  { root := dir E.configPath, dataDir := theDataDir E, pluginDir := seenFrom (dir E.configPath) (seenFrom (dir E.configPath) (thePluginDir E)),
    options := some [], function := some (.dataHash, "yaml_data".toList), name := l.name,
    locations := some [.path l.written (l.file E sc) (E.stat (l.file E sc))] }

/-- The defaults, resolved. -/
def resolvedDefaults (E : Env) : Entry :=
  { root := dir E.configPath, dataDir := theDataDir E, pluginDir := seenFrom (dir E.configPath) (thePluginDir E),
    options := some [], function := some (.dataHash, "yaml_data".toList) }

theorem refDir_unmarked {E : Env} {r : Ref} {C : Ctx} {x : Str} (h : ¬Marked x) : refDir E r C x none x = pure x := by
  unfold refDir
  split
  · rfl
  · exact refCfg_unmarked h

theorem refDefaults_of {E : Env} (hd : ¬Marked (theDataDir E)) (hp : ¬Marked (thePluginDir E)) (r : Ref) (C : Ctx) :
    refResolve E r C none (makeDefaultConfig E.cfg (dir E.configPath)) = pure (resolvedDefaults E) := by
  have hy : refCfg E r C "yaml_data".toList = pure "yaml_data".toList := refCfg_unmarked (fun h => by
    have := (hasMarker_iff _).2 h
    revert this; decide)
  have hf : ∀ e : Entry, e.function = some (.dataHash, "yaml_data".toList) → refFunction E r C none e = pure e := by
    intro e he
    obtain ⟨_, _, _, _, _, _, _, _⟩ := e
    dsimp only at he
    subst he
    unfold refFunction
    simp only [hy]
    rfl
  unfold refResolve
  rw [hf _ rfl, Ans.pure_bind, hf _ rfl, Ans.pure_bind]
  have h1 : refDir E r C (makeDefaultConfig E.cfg (dir E.configPath)).dataDir ((none : Option Entry).map (·.dataDir)) E.cfg.defaultDataDir = pure (theDataDir E) :=
    refDir_unmarked hd
  have h2 : refDir E r C (makeDefaultConfig E.cfg (dir E.configPath)).pluginDir ((none : Option Entry).map (·.pluginDir)) E.cfg.defaultPluginDir = pure (thePluginDir E) :=
    refDir_unmarked hp
  rw [h1, Ans.pure_bind, h2, Ans.pure_bind]
  rfl

theorem refDefaults {E : Env} {sc : Scope} {ls : List Level} (ho : Ordinary E sc ls) (r : Ref) (C : Ctx) :
    refResolve E r C none (makeDefaultConfig E.cfg (dir E.configPath)) = pure (resolvedDefaults E) := refDefaults_of ho.dataDir ho.pluginDir r C

theorem refLevel {E : Env} {sc : Scope} {ls : List Level} (ho : Ordinary E sc ls) {l : Level} (hl : l ∈ ls) (n : Nat) (w : Within) :
    refResolve E (ref E none (n + 1)) ⟨sc, w⟩ (some (resolvedDefaults E)) (entryOf (dir E.configPath) l) = pure (resolvedOf E sc l) := by
  have hy : refCfg E (ref E none (n + 1)) ⟨sc, w⟩ "yaml_data".toList = pure "yaml_data".toList := refCfg_unmarked (fun h => by
    have := (hasMarker_iff _).2 h
    revert this; decide)
  unfold refResolve
  have h1 : refFunction E (ref E none (n + 1)) ⟨sc, w⟩ (some (resolvedDefaults E)) (entryOf (dir E.configPath) l) =
    pure { entryOf (dir E.configPath) l with function := some (.dataHash, "yaml_data".toList) } := rfl
  have h2 : refFunction E (ref E none (n + 1)) ⟨sc, w⟩ (some (resolvedDefaults E)) { entryOf (dir E.configPath) l with function := some (.dataHash, "yaml_data".toList) } =
    pure { entryOf (dir E.configPath) l with function := some (.dataHash, "yaml_data".toList) } := by
    unfold refFunction
    simp only [hy]
    rfl
  rw [h1, Ans.pure_bind, h2, Ans.pure_bind]
  have hp : ∀ d, refLocations E (ref E none (n + 1)) ⟨sc, w⟩ d (entryOf (dir E.configPath) l).locations =
      pure (some [.path l.written (join d (l.path.flatMap (PathPiece.meant E sc))) (E.stat (join d (l.path.flatMap (PathPiece.meant E sc))))]) := by
    intro d
    show refLocations _ _ _ _ (some [.path l.written [] false]) = _
    unfold refLocations refLocs refLocs refLoc
    simp only [refCfg_path ho hl]
    rfl
  simp only [hp]
  rfl

theorem refLevels_ordinary {E : Env} {sc : Scope} {ls : List Level} (ho : Ordinary E sc ls) (n : Nat) (w : Within) :
    refResolveAll E (ref E none (n + 1)) ⟨sc, w⟩ (resolvedDefaults E) (ls.map (entryOf (dir E.configPath))) = pure (ls.map (resolvedOf E sc)) := by
  have : ∀ ms : List Level, (∀ m ∈ ms, m ∈ ls) →
      refResolveAll E (ref E none (n + 1)) ⟨sc, w⟩ (resolvedDefaults E) (ms.map (entryOf (dir E.configPath))) = pure (ms.map (resolvedOf E sc)) := by
    intro ms hm
    induction ms with
    | nil => rfl
    | cons m ms ih =>
      rw [List.map_cons, refResolveAll, refLevel ho (hm m (List.mem_cons_self ..)), Ans.pure_bind, ih (fun x hx => hm x (List.mem_cons_of_mem _ hx))]
      rfl
  exact this ls (fun _ h => h)

/-! ### Data -/

/-- What a level has for a key. -/
def Spec.Level.has (l : Level) (key : Str) : Option Value := l.data.bind (fun es => Entries.getS es key)

theorem refEntry_read {E : Env} {sc : Scope} {ls : List Level} (ho : Ordinary E sc ls) {l : Level} (hl : l ∈ ls) (r : Ref) (C : Ctx)
    (k : Key) (st : Strategy) :
    refEntry E r C k st (resolvedOf E sc l) = match l.has k.root with
      | none => pure none
      | some v => refInterp E r C true v := by
  show refAt E r C k (resolvedOf E sc l) (.path l.written (l.file E sc) (E.stat (l.file E sc))) = _
  cases hd : l.data with
  | none =>
    rw [ho.absent l hl hd]
    show (pure none : Ans (Option Value)) = _
    rw [Level.has, hd]; rfl
  | some es =>
    obtain ⟨h1, h2, h3⟩ := ho.there l hl es hd
    rw [h1]
    have hh : refHash E (resolvedOf E sc l) "yaml_data".toList (refOpts (resolvedOf E sc l) (some (.path l.written (l.file E sc) true))) = .ok es := by
      unfold refHash
      rw [if_pos rfl]
      have : ∀ p : Str, fileData E E.readYaml (refOpts (resolvedOf E sc l) (some (.path l.written p true))) =
        match E.readYaml p with
        | .missing => .ok []
        | .err e => .panic e
        | .value (.map es) => .ok es
        | .value _ => .panic (.notHash p) := fun p => rfl
      rw [this, h2]
    show refSource E r C k (resolvedOf E sc l) (some (.path l.written (l.file E sc) true)) = _
    unfold refSource
    show (Ans.of (refHash E (resolvedOf E sc l) "yaml_data".toList (refOpts (resolvedOf E sc l) (some (.path l.written (l.file E sc) true)))) >>= _) = _
    rw [hh, Ans.of_ok_bind]
    have hg : l.has k.root = Entries.getS es k.root := by rw [Level.has, hd]; rfl
    rw [hg]
    cases Entries.getS es k.root <;> rfl

/-- What is read for a key from data that has a value for it, or none. -/
def readAs (E : Env) (r : Ref) (C : Ctx) (v : Option Value) : Ans (Option Value) :=
  match v with
  | none => pure none
  | some v => refInterp E r C true v

theorem readAs_unmarked {E : Env} {r : Ref} {C : Ctx} {v : Option Value} (h : ∀ w, v = some w → Unmarked w) : readAs E r C v = pure v := by
  cases v with
  | none => rfl
  | some w => exact refInterp_unmarked true (unmarked_iff (h w rfl))

theorem refEntry_level {E : Env} {sc : Scope} {ls : List Level} (ho : Ordinary E sc ls) {l : Level} (hl : l ∈ ls) (r : Ref) (C : Ctx)
    (k : Key) (st : Strategy) (hu : ∀ v, l.has k.root = some v → Unmarked v) :
    refEntry E r C k st (resolvedOf E sc l) = pure (l.has k.root) := by
  rw [refEntry_read ho hl]
  cases hv : l.has k.root with
  | none => rfl
  | some v => exact refInterp_unmarked true (unmarked_iff (hu v hv))

/-- What the merge of values gives, if the levels have them. -/
def outcome (st : Strategy) (ls : List Level) (key : Str) : Option Value :=
  match st, ls with
  | .first, _ => (valuesOf ls key).head?
  | st, [l] => (l.has key).map st.single
  | st, _ => refCombine st (valuesOf ls key)

theorem valuesOf_cons (l : Level) (ls : List Level) (key : Str) : valuesOf (l :: ls) key = (l.has key).toList ++ valuesOf ls key := by
  unfold valuesOf Level.has
  rw [List.filterMap_cons]
  cases l.data.bind (fun es => Entries.getS es key) <;> rfl

theorem refFirst_pure (key : Str) : ∀ ls : List Level, refFirst (ls.map (fun l => (pure (l.has key) : Ans (Option Value)))) = pure (valuesOf ls key).head?
  | [] => rfl
  | l :: ls => by
    rw [List.map_cons, refFirst, Ans.pure_bind]
    rw [valuesOf_cons]
    cases l.has key with
    | none => exact refFirst_pure key ls
    | some v => rfl

theorem refFound_pure (key : Str) : ∀ ls : List Level, refFound (ls.map (fun l => (pure (l.has key) : Ans (Option Value)))) = pure (valuesOf ls key)
  | [] => rfl
  | l :: ls => by
    rw [List.map_cons, refFound, Ans.pure_bind, refFound_pure key ls, Ans.pure_bind]
    rw [valuesOf_cons]

theorem refMerge_pure (st : Strategy) (ls : List Level) (key : Str) :
    refMerge st (ls.map (fun l => (pure (l.has key) : Ans (Option Value)))) = pure (outcome st ls key) := by
  have many : ∀ (st : Strategy) (ls : List Level), (do
      let vs ← refFound (ls.map (fun l => (pure (l.has key) : Ans (Option Value))))
      pure (refCombine st vs)) = (pure (refCombine st (valuesOf ls key)) : Ans (Option Value)) := fun st ls => by
    rw [refFound_pure, Ans.pure_bind]
  match st, ls with
  | .first, ls => exact refFirst_pure key ls
  | .unique, [] => rfl
  | .hash, [] => rfl
  | .deep _, [] => rfl
  | .unique, [_] => rfl
  | .hash, [_] => rfl
  | .deep _, [_] => rfl
  | .unique, a :: b :: ls => exact many .unique (a :: b :: ls)
  | .hash, a :: b :: ls => exact many .hash (a :: b :: ls)
  | .deep o, a :: b :: ls => exact many (.deep o) (a :: b :: ls)

theorem refHierarchy_levels {E : Env} {sc : Scope} {ls : List Level} (ho : Ordinary E sc ls) (r : Ref) (C : Ctx)
    (k : Key) (st : Strategy) (hu : ∀ v ∈ valuesOf ls k.root, Unmarked v) :
    refHierarchy E r C k st (ls.map (resolvedOf E sc)) = pure (outcome st ls k.root) := by
  unfold refHierarchy
  rw [← refMerge_pure, List.map_map]
  congr 1
  refine List.map_congr_left (fun l hl => refEntry_level ho hl r C k st (fun v hv => hu v ?_))
  exact List.mem_filterMap.2 ⟨l, hl, hv⟩

theorem refSite_ordinary {E : Env} {sc : Scope} {ls : List Level} (ho : Ordinary E sc ls) (n : Nat)
    (hu : ∀ v ∈ valuesOf ls "lookup_options".toList, Unmarked v) :
    (Ans.of (newCfg E.cfg E.configPath (E.readYaml E.configPath)) >>= refSite E (ref E none (n + 1)) ⟨sc, .call⟩) =
      pure ⟨ls.map (resolvedOf E sc), asMap (outcome (.deep []) ls "lookup_options".toList)⟩ := by
  rw [newCfg_levels ho, Ans.of_ok_bind]
  unfold refSite refLevels
  simp only [refDefaults ho, Ans.pure_bind, refLevels_ordinary ho]
  have : refResolveAll E (ref E none (n + 1)) ⟨sc, .call⟩ (resolvedDefaults E) [] = pure [] := rfl
  rw [this, Ans.pure_bind, refHierarchy_levels ho _ _ lookupOptionsKey _ hu]
  rfl

/-! ### Options -/

theorem said_merge {xs ys : Entries} {z : Value} (hm : DeepMerged (.map xs) (.map ys) z)
    (cx : Entries.getS xs "convert_to".toList = none) (cy : Entries.getS ys "convert_to".toList = none)
    (mx : ∀ m, Entries.getS xs "merge".toList = some m → ∃ t, m = .str t) (my : ∀ m, Entries.getS ys "merge".toList = some m → ∃ t, m = .str t) :
    ∃ zs, z = .map zs ∧ Entries.getS zs "convert_to".toList = none ∧ (∀ m, Entries.getS zs "merge".toList = some m → ∃ t, m = .str t) ∧
      Entries.getS zs "merge".toList = (Entries.getS xs "merge".toList).or (Entries.getS ys "merge".toList) := by
  have ws : ∀ x : Str, WF (.str x) := fun x => by simp [WF]
  cases hm with
  | other h => exact absurd trivial h
  | @maps _ _ zs g1 g2 g3 g4 =>
    have cz : Entries.getS zs "convert_to".toList = none := (g1 _ (ws _)).2 ⟨cx, cy⟩
    have fin : (∀ m, Entries.getS zs "merge".toList = some m → ∃ t, m = .str t) ∧
        Entries.getS zs "merge".toList = (Entries.getS xs "merge".toList).or (Entries.getS ys "merge".toList) := by
      cases hxm : Entries.getS xs "merge".toList with
      | none =>
        cases hym : Entries.getS ys "merge".toList with
        | none =>
          have : Entries.getS zs "merge".toList = none := (g1 _ (ws _)).2 ⟨hxm, hym⟩
          exact ⟨fun m h => (by rw [this] at h; cases h), this⟩
        | some m =>
          have : Entries.getS zs "merge".toList = some m := g3 _ _ (ws _) hxm hym
          exact ⟨fun m h => by rw [this] at h; cases h; exact my m hym, this⟩
      | some m =>
        have : Entries.getS zs "merge".toList = some m := by
          cases hym : Entries.getS ys "merge".toList with
          | none => exact g2 _ _ (ws _) hxm hym
          | some m' =>
            cases hzm : Entries.getS zs "merge".toList with
            | none => exact absurd ((g1 _ (ws _)).1 hzm).1 (by rw [Entries.getS] at hxm; rw [hxm]; simp)
            | some m'' =>
              have hm := g4 _ m m' m'' (ws _) hxm hym hzm
              obtain ⟨t, rfl⟩ := mx m hxm
              cases hm
              rfl
        exact ⟨fun m' h => by rw [this] at h; cases h; exact mx m hxm, by rw [this]; simp⟩
    exact ⟨zs, rfl, cz, fin.1, fin.2⟩

theorem deep_options {key : Str} {a b : Value} (ha : OptionsAre key a) (hb : OptionsAre key b) (wa : WF a) (wb : WF b) :
    OptionsAre key (deep a b).1 ∧ mergeIn key (deep a b).1 = (mergeIn key a).or (mergeIn key b) := by
  obtain ⟨as, rfl, ha⟩ := ha
  obtain ⟨bs, rfl, hb⟩ := hb
  have ws : ∀ x : Str, WF (.str x) := fun x => by simp [WF]
  have hd := C10_deep (.map as) (.map bs) wa wb
  show OptionsAre key (deepMerge (.map as) (.map bs)).1 ∧ mergeIn key (deepMerge (.map as) (.map bs)).1 = _
  generalize (deepMerge (.map as) (.map bs)).1 = r at hd
  cases hd with
  | other h => exact absurd trivial h
  | @maps _ _ rs h1 h2 h3 h4 =>
    have e : ∀ es : Entries, mergeIn key (.map es) = (Entries.getS es key).bind (valueAt [.str "merge".toList]) := fun _ => rfl
    rw [e, e, e]
    cases hx : Entries.getS as key with
    | none =>
      cases hy : Entries.getS bs key with
      | none =>
        have hz : Entries.getS rs key = none := (h1 _ (ws key)).2 ⟨hx, hy⟩
        refine ⟨⟨rs, rfl, fun o h => ?_⟩, ?_⟩
        · rw [hz] at h; cases h
        · rw [hz]; rfl
      | some y =>
        have hz : Entries.getS rs key = some y := h3 _ _ (ws key) hx hy
        refine ⟨⟨rs, rfl, fun o h => ?_⟩, ?_⟩
        · rw [hz] at h; cases h; exact hb y hy
        · rw [hz]; rfl
    | some x =>
      cases hy : Entries.getS bs key with
      | none =>
        have hz : Entries.getS rs key = some x := h2 _ _ (ws key) hx hy
        refine ⟨⟨rs, rfl, fun o h => ?_⟩, ?_⟩
        · rw [hz] at h; cases h; exact ha x hx
        · rw [hz]; simp
      | some y =>
        cases hz : Entries.getS rs key with
        | none => exact absurd ((h1 _ (ws key)).1 hz).1 (by rw [Entries.getS] at hx; rw [hx]; simp)
        | some z =>
          have hm := h4 _ x y z (ws key) hx hy hz
          obtain ⟨xs, rfl, cx, mx⟩ := ha x hx
          obtain ⟨ys, rfl, cy, my⟩ := hb y hy
          obtain ⟨zs, rfl, cz, f1, f2⟩ := said_merge hm cx cy mx my
          have e' : ∀ es : Entries, valueAt [.str "merge".toList] (.map es) = Entries.getS es "merge".toList := fun es => by
            rw [valueAt]
            show (Entries.getS es "merge".toList).bind _ = _
            cases Entries.getS es "merge".toList <;> rfl
          simp only [Option.bind_some, e']
          refine ⟨⟨rs, rfl, fun o h => ?_⟩, f2⟩
          rw [hz] at h
          cases h
          exact ⟨zs, rfl, cz, f1⟩

theorem deep_chain {key : Str} : ∀ (vs : List Value) (v : Value), (∀ w ∈ v :: vs, OptionsAre key w ∧ WF w) →
    OptionsAre key (vs.foldl (Strategy.deep []).merge v) ∧ WF (vs.foldl (Strategy.deep []).merge v) ∧
    mergeIn key (vs.foldl (Strategy.deep []).merge v) = (v :: vs).findSome? (mergeIn key)
  | [], v, h => ⟨(h v (by simp)).1, (h v (by simp)).2, by simp [List.findSome?]; cases mergeIn key v <;> rfl⟩
  | w :: vs, v, h => by
    have hv := h v (by simp)
    have hw := h w (by simp)
    have hm : (Strategy.deep []).merge v w = (deep v w).1 := rfl
    obtain ⟨h1, h2⟩ := deep_options hv.1 hw.1 hv.2 hw.2
    have ih := deep_chain vs (deep v w).1 (fun x hx => by
      rcases List.mem_cons.1 hx with rfl | hx
      · exact ⟨h1, deep_WF hv.2 hw.2⟩
      · exact h x (by simp [hx]))
    rw [List.foldl_cons, hm]
    refine ⟨ih.1, ih.2.1, ih.2.2.trans ?_⟩
    simp only [List.findSome?]
    rw [h2]
    cases mergeIn key v with
    | none => rfl
    | some x => rfl

theorem valuesOf_WF {E : Env} {sc : Scope} {ls : List Level} (ho : Ordinary E sc ls) {key : Str} {v : Value} (h : v ∈ valuesOf ls key) : WF v := by
  obtain ⟨l, hl, hv⟩ := List.mem_filterMap.1 h
  cases hd : l.data with
  | none => rw [hd] at hv; cases hv
  | some es =>
    rw [hd] at hv
    exact Entries.WF_of_get (ho.there l hl es hd).2.2 hv

/-- What the lookup options of levels say about a key. -/
theorem options_of {ls : List Level} {key : Str} (hwf : ∀ v ∈ valuesOf ls "lookup_options".toList, WF v)
    (hopt : ∀ v ∈ valuesOf ls "lookup_options".toList, OptionsAre key v) :
    let lo := (asMap (outcome (.deep []) ls "lookup_options".toList)).bind (fun m => asMap (Entries.getS m key))
    (∀ os, lo = some os → WF (.map os) ∧ ∀ m, Entries.getS os "merge".toList = some m → ∃ t, m = .str t) ∧
    lo.bind (fun m => Entries.getS m "convert_to".toList) = none ∧
    lo.bind (fun m => Entries.getS m "merge".toList) = (valuesOf ls "lookup_options".toList).findSome? (mergeIn key) := by
  have hs : outcome (.deep []) ls "lookup_options".toList = refCombine (.deep []) (valuesOf ls "lookup_options".toList) := by
    match ls with
    | [] => rfl
    | [l] =>
      rw [valuesOf_cons]
      show (l.has "lookup_options".toList).map (Strategy.single (.deep [])) = _
      cases l.has "lookup_options".toList <;> rfl
    | a :: b :: ls => rfl
  rw [hs]
  cases hv : valuesOf ls "lookup_options".toList with
  | nil => exact ⟨(nofun), rfl, rfl⟩
  | cons v vs =>
    have h := deep_chain vs v (fun w hw => ⟨hopt w (hv ▸ hw), hwf w (hv ▸ hw)⟩)
    show (∀ os, (asMap (some (vs.foldl (Strategy.deep []).merge v))).bind (fun m => asMap (Entries.getS m key)) = some os → _) ∧ ((asMap (some (vs.foldl (Strategy.deep []).merge v))).bind (fun m => asMap (Entries.getS m key))).bind (fun m => Entries.getS m "convert_to".toList) = none ∧
      ((asMap (some (vs.foldl (Strategy.deep []).merge v))).bind (fun m => asMap (Entries.getS m key))).bind (fun m => Entries.getS m "merge".toList) = _
    rw [← h.2.2]
    obtain ⟨⟨es, he, h1⟩, h2, _⟩ := h
    rw [he]
    have e : mergeIn key (.map es) = (Entries.getS es key).bind (valueAt [.str "merge".toList]) := rfl
    rw [e]
    show (∀ os, asMap (Entries.getS es key) = some os → _) ∧ ((asMap (Entries.getS es key)).bind _ = none) ∧ (asMap (Entries.getS es key)).bind _ = _
    cases ho : Entries.getS es key with
    | none => exact ⟨(nofun), rfl, rfl⟩
    | some o =>
      obtain ⟨os, rfl, c, m⟩ := h1 o ho
      refine ⟨fun os' h => ?_, c, ?_⟩
      · cases h
        exact ⟨Entries.WF_of_get (he ▸ h2) ho, m⟩
      show Entries.getS os "merge".toList = (Entries.getS os "merge".toList).bind _
      cases Entries.getS os "merge".toList <;> rfl

/-- What the lookup options of an ordinary set-up say about a key. -/
theorem options_said {E : Env} {sc : Scope} {ls : List Level} (ho : Ordinary E sc ls) {key : Str}
    (hopt : ∀ v ∈ valuesOf ls "lookup_options".toList, OptionsAre key v) :
    let lo := (asMap (outcome (.deep []) ls "lookup_options".toList)).bind (fun m => asMap (Entries.getS m key))
    lo.bind (fun m => Entries.getS m "convert_to".toList) = none ∧
    lo.bind (fun m => Entries.getS m "merge".toList) = (valuesOf ls "lookup_options".toList).findSome? (mergeIn key) :=
  (options_of (fun _ hv => valuesOf_WF ho hv) hopt).2

end Hiera
