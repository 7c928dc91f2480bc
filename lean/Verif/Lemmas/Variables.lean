/- What the answers of the reference depend on: two scopes. -/
import Verif.Spec.Variables
import Verif.Lemmas.Separate
import Verif.Props.Separate

set_option autoImplicit false

namespace Hiera
open Spec Value

/-- The contexts of two scopes that agree. -/
structure Alongside (T : Str → Prop) (K : Referent → Prop) (U : Prop) (C C' : Ctx) : Prop where
  within : C'.within = C.within
  scope : SameVars T K U C.scope C'.scope

/-- The scope function is called only if variables may be found as data. -/
def OpenFn (T : Str → Prop) (K : Referent → Prop) (U : Prop) : LkFn → Prop
  | .custom f => ∀ o q, K (.key q) → ReadsProg T K (f o q)
  | .scope => U
  | _ => True

/-- Answers for nested lookups are the same in two contexts. -/
structure Level (T : Str → Prop) (K : Referent → Prop) (U : Prop) (r : Ref) : Prop where
  lookup : ∀ C C' k o, Alongside T K U C C' → K (.key k.root) → Alike (CleanO T) (r.lookup C k o) (r.lookup C' k o)
  interp : ∀ C C' a v, Alongside T K U C C' → WithinV T K v → Alike (CleanO T) (r.interp C a v) (r.interp C' a v)
  call : ∀ C C' f o q, Alongside T K U C C' → K (.key q) → OpenFn T K U f →
    Alike (CleanO (RefersIn T K)) (r.call C f o q) (r.call C' f o q)

/-- No variables. -/
def noScope : Scope := .map []

theorem reads_within {T : Str → Prop} {K : Referent → Prop} {q : Prog} (h : ReadsProg T K q) : WithinProg T K noScope q := by
  induction h with
  | ret hv => exact .ret hv
  | panic => exact .panic
  | interpolate hv _ ih => exact .interpolate hv ih
  | lookup hk _ ih => exact .lookup hk ih
  | explain _ ih => exact .explain ih
  | scopeGet _ _ ih => exact .scopeGet (ih _ cleanO_none)
  | cache => exact .cache
  | cachedValue => exact .cachedValue

theorem Spec.Contained.shut {E : Env} {T : Str → Prop} {K : Referent → Prop} (h : Contained E T K) : Shut E T K noScope where
  nil := h.inert.nil
  append := h.inert.append
  sub := fun _ hs => refersIn_inert h.inert hs
  text := h.text
  options := h.options
  again := h.again
  vars := fun _ _ _ h => nomatch h
  dig := h.dig
  env := h.env
  scope := fun _ _ _ h => nomatch h
  custom := fun f o q hf hq => reads_within (h.custom f o q hf hq)
  conv := h.conv

section
variable {E : Env} {T : Str → Prop} {K : Referent → Prop} {U : Prop} {r : Ref} {C C' : Ctx}

/-! ### Interpolation -/

/-- What a text may refer to: a key, or a variable that is the same in both contexts. -/
def FineIn (T : Str → Prop) (K : Referent → Prop) (C C' : Ctx) : Referent → Prop
  | .key q => K (.key q)
  | .var n => C'.scope.get n = C.scope.get n ∧ ∀ v, C.scope.get n = some v → WithinV T K v

theorem Alongside.fineIn (hC : Alongside T K U C C') : ∀ {i : Referent}, K i → FineIn T K C C' i
  | .key _, h => h
  | .var n, h => hC.scope.vars n h

theorem refVar_level (h : Level T K U r) (hC : Alongside T K U C C') (a : Bool) {x : Str}
    (hx : ∀ k, newKey x = .ok k → FineIn T K C C' (.var k.root)) : Alike (CleanO T) (refVar r C a x) (refVar r C' a x) := by
  refine .bind (.of (Q := fun k => newKey x = .ok k) (fun _ h => h)) (fun k hk => ?_)
  obtain ⟨h1, h2⟩ := hx k hk
  rw [h1]
  cases hs : C.scope.get k.root with
  | none => exact .pure cleanO_none
  | some v => exact .bind (h.interp C C' a v hC (h2 v hs)) (fun w hw => .pure (cleanO_digPure hw))

theorem refLook_level (h : Level T K U r) (hC : Alongside T K U C C') {x : Str}
    (hx : ∀ k, newKey x = .ok k → K (.key k.root)) : Alike (CleanO T) (refLook r C x) (refLook r C' x) :=
  .bind (.of (Q := fun k => newKey x = .ok k) (fun _ h => h)) (fun k hk => h.lookup C C' k [] hC (hx k hk))

theorem refPiece_level (hK : Contained E T K) (h : Level T K U r) (hC : Alongside T K U C C') (a : Bool) {e : Str}
    (he : ∀ i, ExprRefers (trimSpace e) i → FineIn T K C C' i) :
    Alike (fun o => TidyExpr T e → T o) (refPiece E r C a e) (refPiece E r C' a e) := by
  have hS := hK.shut
  unfold refPiece
  split
  · exact .pure (fun _ => hS.nil)
  · refine .bind (.of (Q := fun md => getMethodAndData (trimSpace e) a = .ok md) (fun _ h => h)) (fun md hmd => ?_)
    obtain ⟨m, x⟩ := md
    obtain ⟨h1, h2, h3⟩ := method_refers hmd
    cases m with
    | literal => exact .pure (fun ht => ht _ _ (trimSpace_trimmed e) (h3 rfl))
    | scope => exact .bind (refVar_level h hC a (fun k hk => he _ (h1 rfl k hk))) (fun v hv => .pure (fun _ => hS.textOf hv))
    | lookup => exact .bind (refLook_level h hC (fun k hk => he _ (h2 (.inl rfl) k hk))) (fun v hv => .pure (fun _ => hS.textOf hv))
    | «alias» => exact .fail
    | strictAlias => exact .fail

theorem refText_level (hK : Contained E T K) (h : Level T K U r) (hC : Alongside T K U C C') (a : Bool) : ∀ ts,
    (∀ e i, Tok.expr e ∈ ts → ExprRefers (trimSpace e) i → FineIn T K C C' i) → Alike (Rend T ts) (refText E r C a ts) (refText E r C' a ts)
  | [], _ => .pure .nil
  | .chr _ :: ts, hts => .bind (refText_level hK h hC a ts (fun e i he => hts e i (List.mem_cons_of_mem _ he))) (fun _ ho => .pure (.chr ho))
  | .expr e :: ts, hts => .bind (refPiece_level hK h hC a (fun i hi => hts e i (List.mem_cons_self ..) hi)) (fun _ h1 =>
      .bind (refText_level hK h hC a ts (fun e i he => hts e i (List.mem_cons_of_mem _ he))) (fun _ h2 => .pure (.expr h1 h2)))

theorem refStr_level (hK : Contained E T K) (h : Level T K U r) (hC : Alongside T K U C C') (a : Bool) {s : Str} (hs : RefersIn T K s) :
    Alike (CleanO T) (refStr E r C a s) (refStr E r C' a s) := by
  have hS := hK.shut
  have hr : ∀ e i, Tok.expr e ∈ tokens s → ExprRefers (trimSpace e) i → K i :=
    fun e i he hi => hs.2 _ e _ i (tokens_splits s) he (trimSpace_trimmed e) hi
  have hal : ∀ m x, aliasOf a (tokens s) = some (m, x) → ∀ k, newKey x = .ok k → K (.key k.root) := by
    intro m x hx k hk
    unfold aliasOf at hx
    split at hx
    · rename_i e he
      split at hx
      · cases hx
      · split at hx
        · rename_i hg; cases hx; exact hr e _ (by rw [he]; simp) ((method_refers hg).2.1 (.inr (.inl rfl)) k hk)
        · rename_i hg; cases hx; exact hr e _ (by rw [he]; simp) ((method_refers hg).2.1 (.inr (.inr rfl)) k hk)
        · cases hx
    · cases hx
  unfold refStr
  split
  · rename_i hx; exact refLook_level h hC (hal _ _ hx)
  · rename_i hx
    refine .bind (refLook_level h hC (hal _ _ hx)) (fun v hv => .pure (cleanO_some.2 ?_))
    cases v with
    | none => exact clean_str.2 hS.nil
    | some v => exact cleanO_some.1 hv
  · exact .bind (refText_level hK h hC a _ (fun e i he hi => hC.fineIn (hr e i he hi))) (fun t ht => .pure (cleanO_some.2 (clean_str.2 (hS.tidy (hs.1 _ (tokens_splits s)) ht))))

mutual
theorem refInterp_level (hK : Contained E T K) (h : Level T K U r) (hC : Alongside T K U C C') (a : Bool) : ∀ v, WithinV T K v →
    Alike (CleanO T) (refInterp E r C a v) (refInterp E r C' a v)
  | .str s, hv => by rw [refInterp, refInterp]; exact refStr_level hK h hC a (clean_str.1 hv)
  | .arr vs, hv => by
    rw [refInterp, refInterp]
    exact .bind (refList_level hK h hC a vs (clean_arr.1 hv)) (fun ws hws => .pure (cleanO_some.2 (clean_arr.2 hws)))
  | .map es, hv => by
    rw [refInterp, refInterp]
    split
    · exact .bind (refEntries_level hK h hC a [] es (clean_map.2 (fun _ h => nomatch h)) (clean_map.1 hv)) (fun ws hws => .pure (cleanO_some.2 hws))
    · rename_i hm
      exact .pure (cleanO_some.2 (hK.shut.unmarkedV _ hv (by rw [marked]; simpa using hm)))
  | .null, _ => by rw [refInterp, refInterp] <;> first | exact .pure (cleanO_some.2 clean_null) | simp
  | .bool _, _ => by rw [refInterp, refInterp] <;> first | exact .pure (cleanO_some.2 (fun _ hs => nomatch hs)) | simp
  | .int _, _ => by rw [refInterp, refInterp] <;> first | exact .pure (cleanO_some.2 (fun _ hs => nomatch hs)) | simp
  | .sensitive _, _ => by rw [refInterp, refInterp] <;> first | exact .pure (cleanO_some.2 (fun _ hs => nomatch hs)) | simp
  | .opaque _, _ => by rw [refInterp, refInterp] <;> first | exact .pure (cleanO_some.2 (fun _ hs => nomatch hs)) | simp
theorem refList_level (hK : Contained E T K) (h : Level T K U r) (hC : Alongside T K U C C') (a : Bool) : ∀ vs : List Value, (∀ v ∈ vs, WithinV T K v) →
    Alike (fun ws => ∀ w ∈ ws, Clean T w) (refList E r C a vs) (refList E r C' a vs)
  | [], _ => by rw [refList, refList]; exact .pure (fun _ h => nomatch h)
  | v :: vs, hv => by
    rw [refList, refList]
    refine .bind (refInterp_level hK h hC a v (hv v (List.mem_cons_self ..))) (fun w hw =>
      .bind (refList_level hK h hC a vs (fun x hx => hv x (List.mem_cons_of_mem _ hx))) (fun ws hws => .pure ?_))
    intro x hx
    rcases List.mem_cons.1 hx with rfl | hx
    · exact clean_getD hw
    · exact hws x hx
theorem refEntries_level (hK : Contained E T K) (h : Level T K U r) (hC : Alongside T K U C C') (a : Bool) : ∀ (cp : Entries) (es : List (Value × Value)),
    Clean T (.map cp) → (∀ e ∈ es, WithinV T K e.1 ∧ WithinV T K e.2) →
    Alike (fun ws => Clean T (.map ws)) (refEntries E r C a cp es) (refEntries E r C' a cp es)
  | cp, [], hcp, _ => by rw [refEntries, refEntries]; exact .pure hcp
  | cp, (k, v) :: es, hcp, hes => by
    rw [refEntries, refEntries]
    have h1 := hes (k, v) (List.mem_cons_self ..)
    exact .bind (refInterp_level hK h hC a k h1.1) (fun x hx => .bind (refInterp_level hK h hC a v h1.2) (fun y hy =>
      refEntries_level hK h hC a _ es (clean_put hcp (clean_getD hx) (clean_getD hy)) (fun e he => hes e (List.mem_cons_of_mem _ he))))
end

theorem refProg_level (hK : Contained E T K) (h : Level T K U r) (hC : Alongside T K U C C') {q : Prog} (hq : ReadsProg T K q) :
    Alike (CleanO (RefersIn T K)) (refProg E r C q) (refProg E r C' q) := by
  induction hq with
  | ret hv => exact .pure hv
  | panic => exact .fail
  | interpolate hv _ ih => exact .bind (refInterp_level hK h hC true _ hv) (fun x hx => ih x hx)
  | lookup hk _ ih =>
    exact .bind (.of (Q := fun k => newKey _ = .ok k) (fun _ h => h)) (fun kk hkk => .bind (h.lookup C C' kk _ hC (hk kk hkk)) (fun x hx => ih x hx))
  | explain _ ih => exact ih
  | scopeGet hv _ ih =>
    obtain ⟨h1, h2⟩ := hC.scope.vars _ hv
    rw [refProg, refProg, h1]
    exact ih _ h2
  | cache => exact .never
  | cachedValue => exact .never

/-! ### Sources -/

/-- The functions that lookups may call. -/
theorem openFn_of (hK : Contained E T K) {f : LkFn} (h : ∀ g, f = .custom g → Custom E g) (hs : f = .scope → U) : OpenFn T K U f := by
  cases f with
  | custom g => exact fun o q hq => hK.custom g o q (h g rfl) hq
  | scope => exact hs rfl
  | _ => trivial

theorem refHash_within (hK : Contained E T K) {e : Entry} {n : Str} {o hs : Entries} (h : refHash E e n o = .ok hs) {q : Str} (hq : K (.key q)) :
    CleanO (RefersIn T K) (Entries.getS hs q) := by
  have hh := refHash_alike (E := E) (T := T) (K := K) (p := E.configPath) (ry := E.readYaml) (rj := E.readJson) (e := e) (n := n) (o := o)
    (fun _ _ => .same) (fun _ _ => .same) hK.yaml hK.json hK.hash
  rcases hh with ⟨er, h1, -⟩ | ⟨a, b, h1, -, h3⟩
  · rw [h] at h1; cases h1
  · rw [h] at h1; cases h1
    exact (h3 q hq).2

theorem refSource_level (hK : Contained E T K) (hl : Loads E (.key .scope) → U) (h : Level T K U r) (hC : Alongside T K U C C') {k : Key}
    (hk : K (.key k.root)) {e : Entry} (he : e.function = some (.lookupKey, "scope".toList) → U) (l : Option Loc) :
    Alike (CleanO (RefersIn T K)) (refSource E r C k e l) (refSource E r C' k e l) := by
  unfold refSource
  match hf : e.function with
  | none => exact .fail
  | some (.dataDig, n) =>
    refine .bind (.of (Q := fun f => loadFunction E e n = .ok f) (fun _ h => h)) (fun f hl => ?_)
    rcases f with _ | (f | f | f)
    · exact .pure cleanO_none
    · exact .fail
    · refine .bind (.of (Q := fun v => f k.parts = .ok v) (fun _ h => h)) (fun v hv => .pure (fun w hw => ?_))
      cases v with
      | none => cases hw
      | some v => cases hw; exact hK.dig f k v (loads_of hl) hk hv
    · exact .fail
  | some (.dataHash, n) =>
    refine .bind (.of (Q := fun hs => refHash E e n (refOpts e l) = .ok hs) (fun _ h => h)) (fun hs hh => ?_)
    cases hg : Entries.getS hs k.root with
    | none => exact .pure cleanO_none
    | some v => exact (refInterp_level hK h hC true v (refHash_within hK hh hk v hg)).post (fun _ hw => hK.shut.inO hw)
  | some (.lookupKey, n) =>
    dsimp only
    split
    · exact .pure (fun v hv => hK.env _ v hk hv)
    · split
      · rename_i hn
        obtain ⟨h1, h2⟩ := hC.scope.keys (he (hn ▸ hf)) _ hk
        rw [h1]
        exact .pure h2
      · refine .bind (.of (Q := fun f => loadFunction E e n = .ok f) (fun _ h => h)) (fun f hl' => ?_)
        rcases f with _ | (f | f | f)
        · exact .pure cleanO_none
        · exact .fail
        · exact .fail
        · exact h.call C C' f _ _ hC hk (openFn_of hK (fun g hg => .inl (hg ▸ loads_of hl')) (fun hs => hl (hs ▸ loads_of hl')))

theorem refEntry_along (hK : Contained E T K) (hl : Loads E (.key .scope) → U) (h : Level T K U r) (hC : Alongside T K U C C') {k : Key}
    (hk : K (.key k.root)) (st : Strategy) {e : Entry} (he : e.function = some (.lookupKey, "scope".toList) → U) :
    Alike (CleanO (RefersIn T K)) (refEntry E r C k st e) (refEntry E r C' k st e) := by
  have hat : ∀ l, Alike (CleanO (RefersIn T K)) (refAt E r C k e l) (refAt E r C' k e l) := by
    intro l
    unfold refAt
    split
    · exact refSource_level hK hl h hC hk he _
    · exact refSource_level hK hl h hC hk he _
    · exact .pure cleanO_none
  unfold refEntry
  split
  · exact refSource_level hK hl h hC hk he _
  · exact hat _
  · exact refMerge_alike st (forall₂_map (fun l _ => hat l))

theorem refHierarchy_level (hK : Contained E T K) (hl : Loads E (.key .scope) → U) (h : Level T K U r) (hC : Alongside T K U C C') {k : Key}
    (hk : K (.key k.root)) (st : Strategy) {es : List Entry} (he : ∀ e ∈ es, e.function = some (.lookupKey, "scope".toList) → U) :
    Alike (CleanO (RefersIn T K)) (refHierarchy E r C k st es) (refHierarchy E r C' k st es) :=
  refMerge_alike st (forall₂_map (fun e hm => refEntry_along hK hl h hC hk st (he e hm)))

/-! ### Lookups -/

/-- A resolved configuration: its entries have the function `scope` only if variables may be found as data. -/
def OpenSite (T : Str → Prop) (K : Referent → Prop) (U : Prop) (x : Option Site) : Prop :=
  ∀ y, x = some y → (∀ e ∈ y.entries, e.function = some (.lookupKey, "scope".toList) → U) ∧ CleanO (RefersIn T K) (y.options.map .map)

/-- Where variables may be found as data. -/
structure AskedThrough (E : Env) (U : Prop) : Prop where
  loads : Loads E (.key .scope) → U
  mux : ∀ fs, E.muxFns = some fs → LkFn.scope ∈ fs → U
  top : E.top ≠ .scope

theorem refConfig_level (hK : Contained E T K) (hU : AskedThrough E U) (h : Level T K U r) (hC : Alongside T K U C C') {x : Option Site}
    (hx : OpenSite T K U x) (o : Entries) {q : Str} (hq : K (.key q)) :
    Alike (CleanO (RefersIn T K)) (refConfig E x r C o q) (refConfig E x r C' o q) := by
  unfold refConfig
  cases x with
  | none => exact .never
  | some y =>
    obtain ⟨hes, ho⟩ := hx y rfl
    refine .bind (.of (Q := fun k => newKey q = .ok k) (fun _ h => h)) (fun k hk => ?_)
    have hk' := hK.again _ _ hq hk
    rw [hC.within]
    rcases hw : C.within with _ | _ | _ | st
    · dsimp only
      refine .bind (.of (Q := fun _ => True) (fun _ _ => trivial)) (fun st _ => ?_)
      refine .bind (.of (Q := fun c => extractConversion E (Site.optionsOf _ k) = .ok c) (fun _ h => h)) (fun c hc => ?_)
      refine .bind (refHierarchy_level hK hU.loads h (C := { C with within := .value (some st) }) (C' := { C' with within := .value (some st) })
        ⟨rfl, hC.scope⟩ hk' st hes) (fun v hv => ?_)
      exact .of (fun z hz => convert_within hK.shut hv (optionsOf_clean (es := y.entries) ho k) hc hz)
    · exact .pure (optionsOf_clean (es := y.entries) ho k)
    · exact .fail
    · exact refHierarchy_level hK hU.loads h hC hk' st hes

theorem refMux_level (hK : Contained E T K) (hU : AskedThrough E U) (h : Level T K U r) (hC : Alongside T K U C C') (o : Entries) {q : Str} (hq : K (.key q)) :
    Alike (CleanO (RefersIn T K)) (refMux E r C o q) (refMux E r C' o q) := by
  unfold refMux
  cases hm : E.muxFns with
  | none => exact .pure cleanO_none
  | some fs =>
    have hf : ∀ f ∈ fs, OpenFn T K U f :=
      fun f hf => openFn_of hK (fun g hg => .inr (.inr ⟨fs, hm, hg ▸ hf⟩)) (fun hs => hU.mux fs hm (hs ▸ hf))
    refine .bind (refMerge_alike _ (forall₂_map (fun f hf' => h.call _ _ f o q ⟨rfl, hC.scope⟩ hq (hf f hf')))) (fun lo hlo => ?_)
    refine .bind (.of (Q := fun _ => True) (fun _ _ => trivial)) (fun _ _ => ?_)
    dsimp only
    refine .bind (.of (Q := fun _ => True) (fun _ _ => trivial)) (fun st _ => ?_)
    refine .bind (.of (Q := fun c => extractConversion E (asMap lo) = .ok c) (fun _ h => h)) (fun c hc => ?_)
    refine .bind (refMerge_alike _ (forall₂_map (fun f hf' => h.call _ _ f o q ⟨rfl, hC.scope⟩ hq (hf f hf')))) (fun v hv => ?_)
    exact .of (fun y hy => convert_within hK.shut hv (asMap_clean hlo) hc hy)

theorem refCall_level (hK : Contained E T K) (hU : AskedThrough E U) (h : Level T K U r) (hC : Alongside T K U C C') {x : Option Site}
    (hx : OpenSite T K U x) {f : LkFn} (hf : OpenFn T K U f) (o : Entries) {q : Str} (hq : K (.key q)) :
    Alike (CleanO (RefersIn T K)) (refCall E x r C f o q) (refCall E x r C' f o q) := by
  cases f with
  | config => exact refConfig_level hK hU h hC hx o hq
  | custom f => exact refProg_level hK h hC (hf o q hq)
  | env => exact .pure (fun v hv => hK.env _ v hq hv)
  | scope =>
    obtain ⟨h1, h2⟩ := hC.scope.keys hf _ hq
    show Alike _ (Pure.pure (C.scope.get q)) (Pure.pure (C'.scope.get q))
    rw [h1]
    exact .pure h2
  | notFunction => exact .pure cleanO_none
  | mux => exact refMux_level hK hU h hC o hq
  | yaml => exact .never
  | module => exact .never

theorem final_alongside (hC : Alongside T K U C C') : Alongside T K U C.final C'.final := by
  unfold Ctx.final
  rw [hC.within]
  rcases hw : C.within with _ | _ | st
  · exact ⟨rfl, hC.scope⟩
  · exact ⟨rfl, hC.scope⟩
  · exact hC

theorem refLookup_level (hK : Contained E T K) (hU : AskedThrough E U) (h : Level T K U r) (hC : Alongside T K U C C') {x : Option Site}
    (hx : OpenSite T K U x) {k : Key} (hk : K (.key k.root)) (o : Entries) :
    Alike (CleanO T) (refLookup E x r C k o) (refLookup E x r C' k o) := by
  unfold refLookup
  split
  · exact .pure cleanO_none
  · refine .bind (refCall_level hK hU h hC hx (openFn_of hK (fun g hg => .inr (.inl hg)) (fun hs => (hU.top hs).elim)) o hk) (fun v hv => ?_)
    cases v with
    | none => exact .pure cleanO_none
    | some v => exact .bind (refInterp_level hK h (final_alongside hC) true v (cleanO_some.1 hv)) (fun w hw => .pure (cleanO_digPure hw))

theorem ref_level (hK : Contained E T K) (hU : AskedThrough E U) {x : Option Site} (hx : OpenSite T K U x) : ∀ n, Level T K U (ref E x n)
  | 0 => ⟨fun _ _ _ _ _ _ => .never, fun _ _ _ _ _ _ => .never, fun _ _ _ _ _ _ _ _ => .never⟩
  | n + 1 => by
    have ih := ref_level hK hU hx n
    exact ⟨fun C C' k o hC hk => refLookup_level hK hU ih hC hx hk o, fun C C' a v hC hv => refInterp_level hK ih hC a v hv,
      fun C C' f o q hC hq hf => refCall_level hK hU ih hC hx hf o hq⟩

/-! ### The configuration -/

theorem mentions_of {Q : Referent → Prop} {s : Str} (h : Mentions Q s) : ∀ e i, Tok.expr e ∈ tokens s → ExprRefers (trimSpace e) i → Q i :=
  fun e i he hi => h _ e _ i (tokens_splits s) he (trimSpace_trimmed e) hi

theorem refCfg_level (hK : Contained E T K) (h : Level T K U r) (hC : Alongside T K U C C') {s : Str} (hs : Mentions K s) :
    Alike (fun _ => True) (refCfg E r C s) (refCfg E r C' s) :=
  (refText_level hK h hC false _ (fun e i he hi => hC.fineIn (mentions_of hs e i he hi))).post (fun _ _ => trivial)

theorem refText_chars : ∀ s : Str, refText E r C false (s.map Tok.chr) = pure s
  | [] => rfl
  | c :: s => by rw [List.map_cons, refText, refText_chars s]; rfl

/-- A name of a function refers to nothing else, or there is nothing to interpolate in it. -/
def OpenName (T : Str → Prop) (K : Referent → Prop) (n : Str) : Prop := RefersIn T K n ∨ ¬Marked n

/-- What it becomes is text, and if there is nothing to interpolate it stays. -/
theorem refName_level (hK : Contained E T K) (h : Level T K U r) (hC : Alongside T K U C C') {s : Str} (hs : OpenName T K s) :
    Alike (fun t => ¬Marked t ∧ (¬Marked s → t = s)) (refCfg E r C s) (refCfg E r C' s) := by
  by_cases hm : Marked s
  · have hs : RefersIn T K s := hs.resolve_right (fun h => h hm)
    have hx := refText_level hK h hC false (tokens s) (fun e i he hi => hC.fineIn (hs.2 _ e _ i (tokens_splits s) he (trimSpace_trimmed e) hi))
    exact ⟨hx.1, fun t ht => ⟨hK.inert.unmarked (hK.shut.tidy (hs.1 _ (tokens_splits s)) (hx.2 t ht)), fun h => (h hm).elim⟩⟩
  · have : ∀ C, refCfg E r C s = pure s := by
      intro C
      unfold refCfg
      rw [splits_unique (tokens_splits s) (splits_unmarked hm), refText_chars]
    rw [this, this]
    exact .pure ⟨hm, fun _ => rfl⟩

/-- The name of the function of an entry is such a name, and `scope` only if variables may be found as data. -/
structure OpenEntry (T : Str → Prop) (K : Referent → Prop) (U : Prop) (e : Entry) : Prop where
  name : ∀ kind n, e.function = some (kind, n) → OpenName T K n
  scope : ∀ n, e.function = some (.lookupKey, n) → n = "scope".toList ∨ Marked n → U

theorem yaml_unmarked : ¬Marked "yaml_data".toList := fun h => by
  have := (hasMarker_iff _).2 h
  revert this
  decide

variable {V : Prop}

theorem refFunction_level (hK : Contained E T K) (h : Level T K U r) (hC : Alongside T K U C C') {d : Option Entry} {e : Entry}
    (he : OpenEntry T K V e) (hd : ∀ x, d = some x → OpenEntry T K V x) :
    Alike (fun x => (∃ f, x = { e with function := f }) ∧ OpenEntry T K V x) (refFunction E r C d e) (refFunction E r C' d e) := by
  unfold refFunction
  match hf : e.function, d, hd with
  | some (kind, n), d, _ =>
    refine .bind (refName_level hK h hC (he.name kind n hf)) (fun t ht => .pure ⟨⟨_, rfl⟩, fun k m hm => ?_, fun m hm hs => ?_⟩)
    · cases hm; exact .inr ht.1
    · cases hm
      by_cases hmk : Marked n
      · exact he.scope n hf (.inr hmk)
      · rw [ht.2 hmk] at hs
        exact he.scope n hf hs
  | none, none, _ =>
    refine .pure ⟨⟨_, rfl⟩, fun k m hm => ?_, fun m hm => ?_⟩
    · cases hm; exact .inr yaml_unmarked
    · cases hm
  | none, some d, hd =>
    dsimp only
    match hdf : d.function with
    | none => exact .fail
    | some (kind, n) =>
      refine .pure ⟨⟨_, rfl⟩, fun k m hm => ?_, fun m hm hs => ?_⟩
      · cases hm; exact (hd d rfl).name kind n hdf
      · cases hm; exact (hd d rfl).scope n hdf hs

theorem refDir_level (hK : Contained E T K) (h : Level T K U r) (hC : Alongside T K U C C') {o : Str} (ho : Mentions K o) (d : Option Str) (b : Str) :
    Alike (fun _ => True) (refDir E r C o d b) (refDir E r C' o d b) := by
  unfold refDir
  split
  · exact .pure trivial
  · exact refCfg_level hK h hC ho

theorem refOptions_level (hK : Contained E T K) (h : Level T K U r) (hC : Alongside T K U C C') (d : Option Entry) {e : Entry}
    (he : ∀ os, e.options = some os → WithinV T K (.map os)) :
    Alike (fun _ => True) (refOptions E r C d e) (refOptions E r C' d e) := by
  unfold refOptions
  cases ho : e.options with
  | none => exact .pure trivial
  | some os =>
    refine .bind (refInterp_level hK h hC false _ (he os ho)) (fun v _ => ?_)
    cases v with
    | none => exact .fail
    | some v => cases v <;> first | exact .pure trivial | exact .fail

theorem withVar_alongside (hC : Alongside T K U C C') (key : Str) {v : Value} (hv : WithinV T K v) :
    Alongside T K U { C with scope := C.scope.withVar key v } { C' with scope := C'.scope.withVar key v } := by
  refine ⟨hC.within, fun n hn => ?_, fun hu n hn => ?_⟩
  all_goals
    show (if key = n then some v else C'.scope.get n) = (if key = n then some v else C.scope.get n) ∧
      ∀ w, (if key = n then some v else C.scope.get n) = some w → WithinV T K w
    by_cases hk : key = n
    · rw [if_pos hk, if_pos hk]
      exact ⟨rfl, fun w hw => by cases hw; exact hv⟩
    · rw [if_neg hk, if_neg hk]
      first | exact hC.scope.vars n hn | exact hC.scope.keys hu n hn

theorem refMapped_level (hK : Contained E T K) (h : Level T K U r) (hC : Alongside T K U C C') (key : Str) {t : Str}
    (ht : Mentions (fun i => K i ∨ i = .var key) t) (dir : Str) :
    ∀ vs : List Value, (∀ v ∈ vs, WithinV T K v) → Alike (fun _ => True) (refMapped E r C key t dir vs) (refMapped E r C' key t dir vs)
  | [], _ => .pure trivial
  | v :: vs, hv => by
    have hX := withVar_alongside hC key (hv v (List.mem_cons_self ..))
    have hv' := hv v (List.mem_cons_self ..)
    refine .bind ((refText_level hK h hX false _ (fun e i he hi => ?_)).post (fun _ _ => trivial)) (fun _ (_ : True) =>
      .bind (refMapped_level hK h hC key ht dir vs (fun w hw => hv w (List.mem_cons_of_mem _ hw))) (fun _ _ => .pure trivial))
    rcases mentions_of ht e i he hi with h1 | rfl
    · exact hX.fineIn h1
    · show (if key = key then some v else C'.scope.get key) = (if key = key then some v else C.scope.get key) ∧
        ∀ w, (if key = key then some v else C.scope.get key) = some w → WithinV T K w
      rw [if_pos rfl, if_pos rfl]
      exact ⟨rfl, fun w hw => by cases hw; exact hv'⟩

theorem refLoc_level (hK : Contained E T K) (h : Level T K U r) (hC : Alongside T K U C C') (dir : Str) {l : Loc} (hl : LocMentions K l) :
    Alike (fun _ => True) (refLoc E r C dir l) (refLoc E r C' dir l) := by
  cases l with
  | path o _ _ => exact .bind (refCfg_level hK h hC hl) (fun _ _ => .pure trivial)
  | glob o => exact .bind (refCfg_level hK h hC hl) (fun _ _ => .pure trivial)
  | uri o _ => exact .bind (refCfg_level hK h hC hl) (fun _ _ => .pure trivial)
  | mapped src key t =>
    refine .bind (refVar_level h hC false (fun k hk => hC.fineIn (hl.1 k hk))) (fun v hv => ?_)
    cases v with
    | none => exact .pure trivial
    | some v =>
      have hw := hK.shut.in_ (cleanO_some.1 hv)
      cases v with
      | str s =>
        refine refMapped_level hK h hC key hl.2 dir [.str s] (fun w hm => ?_)
        rw [List.mem_singleton.1 hm]
        exact hw
      | arr vs => exact refMapped_level hK h hC key hl.2 dir vs (clean_arr.1 hw)
      | _ => exact .pure trivial

theorem refLocs_level (hK : Contained E T K) (h : Level T K U r) (hC : Alongside T K U C C') (dir : Str) : ∀ ls : List Loc,
    (∀ l ∈ ls, LocMentions K l) → Alike (fun _ => True) (refLocs E r C dir ls) (refLocs E r C' dir ls)
  | [], _ => .pure trivial
  | l :: ls, hl => .bind (refLoc_level hK h hC dir (hl l (List.mem_cons_self ..))) (fun _ _ =>
      .bind (refLocs_level hK h hC dir ls (fun x hx => hl x (List.mem_cons_of_mem _ hx))) (fun _ _ => .pure trivial))

theorem refLocations_level (hK : Contained E T K) (h : Level T K U r) (hC : Alongside T K U C C') (dir : Str) {ls : Option (List Loc)}
    (hl : ∀ xs, ls = some xs → ∀ l ∈ xs, LocMentions K l) :
    Alike (fun _ => True) (refLocations E r C dir ls) (refLocations E r C' dir ls) := by
  cases ls with
  | none => exact .pure trivial
  | some ls => exact .bind (refLocs_level hK h hC dir ls (hl ls rfl)) (fun _ _ => .pure trivial)

theorem refResolve_level (hK : Contained E T K) (h : Level T K U r) (hC : Alongside T K U C C') {d : Option Entry} {e : Entry}
    (hm : EntryMentions T K e) (he : OpenEntry T K V e) (hd : ∀ x, d = some x → OpenEntry T K V x) :
    Alike (OpenEntry T K V) (refResolve E r C d e) (refResolve E r C' d e) := by
  unfold refResolve
  refine .bind (refFunction_level hK h hC he hd) (fun e1 h1 => ?_)
  obtain ⟨⟨f1, rfl⟩, h1⟩ := h1
  refine .bind (refFunction_level hK h hC h1 hd) (fun e2 h2 => ?_)
  obtain ⟨⟨f2, rfl⟩, h2⟩ := h2
  refine .bind (refDir_level hK h hC hm.dataDir _ _) (fun dir _ => .bind (refDir_level hK h hC hm.pluginDir _ _) (fun pdir _ =>
    .bind (refOptions_level hK h hC d hm.options) (fun os _ => .bind (refLocations_level hK h hC _ hm.locations) (fun ls _ => .pure ?_))))
  exact ⟨h2.name, h2.scope⟩

theorem refResolveAll_level (hK : Contained E T K) (h : Level T K U r) (hC : Alongside T K U C C') {d : Entry} (hd : OpenEntry T K V d) : ∀ es : List Entry,
    (∀ e ∈ es, EntryMentions T K e ∧ OpenEntry T K V e) →
    Alike (fun xs => ∀ x ∈ xs, OpenEntry T K V x) (refResolveAll E r C d es) (refResolveAll E r C' d es)
  | [], _ => .pure (fun _ h => nomatch h)
  | e :: es, he => by
    obtain ⟨h1, h2⟩ := he e (List.mem_cons_self ..)
    refine .bind (refResolve_level hK h hC h1 h2 (fun x hx => by cases hx; exact hd)) (fun a ha =>
      .bind (refResolveAll_level hK h hC hd es (fun x hx => he x (List.mem_cons_of_mem _ hx))) (fun as has => .pure ?_))
    intro x hx
    rcases List.mem_cons.1 hx with rfl | hx
    · exact ha
    · exact has x hx

theorem refLevels_level (hK : Contained E T K) (h : Level T K U r) (hC : Alongside T K U C C') {c : Cfg} (hd : EntryMentions T K c.defaults)
    (hdu : OpenEntry T K V c.defaults) {es : List Entry} (he : ∀ e ∈ es, EntryMentions T K e ∧ OpenEntry T K V e) :
    Alike (fun xs => ∀ x ∈ xs, OpenEntry T K V x) (refLevels E r C c es) (refLevels E r C' c es) :=
  .bind (refResolve_level hK h hC hd hdu (fun _ h => nomatch h)) (fun _ ha => refResolveAll_level hK h hC ha es he)

end
end Hiera
