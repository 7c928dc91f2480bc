/- What the answers of the reference depend on: two worlds in which the contents of files differ. -/
import Verif.Spec.Separate
import Verif.Lemmas.ReferenceMono
import Verif.Lemmas.Termination2

set_option autoImplicit false

namespace Hiera
open Spec Value

/-! ### Contents of files do not matter for interpolation and functions -/

section
variable (E : Env) (p : Str) (ry rj : Str → FileRes) (r : Ref) (C : Ctx)

local notation "E'" => withFiles E p ry rj

theorem refText_files (a : Bool) : ∀ ts, refText E' r C a ts = refText E r C a ts
  | [] => rfl
  | .chr c :: ts => by rw [refText, refText, refText_files a ts]
  | .expr e :: ts => by rw [refText, refText, refText_files a ts]; rfl

theorem refStr_files (a : Bool) (s : Str) : refStr E' r C a s = refStr E r C a s := by
  unfold refStr
  rw [refText_files]

mutual
theorem refInterp_files (a : Bool) : ∀ v, refInterp E' r C a v = refInterp E r C a v
  | .str s => by rw [refInterp, refInterp]; exact refStr_files E p ry rj r C a s
  | .arr vs => by rw [refInterp, refInterp, refList_files a vs]
  | .map es => by rw [refInterp, refInterp, refEntries_files a [] es]
  | .null => by rw [refInterp, refInterp] <;> first | rfl | simp
  | .bool _ => by rw [refInterp, refInterp] <;> first | rfl | simp
  | .int _ => by rw [refInterp, refInterp] <;> first | rfl | simp
  | .sensitive _ => by rw [refInterp, refInterp] <;> first | rfl | simp
  | .opaque _ => by rw [refInterp, refInterp] <;> first | rfl | simp
theorem refList_files (a : Bool) : ∀ vs, refList E' r C a vs = refList E r C a vs
  | [] => by rw [refList, refList]
  | v :: vs => by rw [refList, refList, refInterp_files a v, refList_files a vs]
theorem refEntries_files (a : Bool) : ∀ cp es, refEntries E' r C a cp es = refEntries E r C a cp es
  | cp, [] => by rw [refEntries, refEntries]
  | cp, (k, v) :: es => by
    rw [refEntries, refEntries, refInterp_files a k, refInterp_files a v]
    congr 1; funext x; congr 1; funext y
    exact refEntries_files a _ es
end

theorem refProg_files : ∀ q, refProg E' r C q = refProg E r C q
  | .ret _ => rfl
  | .panic _ => rfl
  | .interpolate v k => by
    rw [refProg, refProg, refInterp_files]
    congr 1; funext x; exact refProg_files (k x)
  | .lookup _ o k => by
    rw [refProg, refProg]
    congr 1; funext x; congr 1; funext y; exact refProg_files (k y)
  | .explain _ k => by rw [refProg, refProg]; exact refProg_files k
  | .cache _ _ _ => rfl
  | .cachedValue _ _ => rfl
  | .scopeGet key k => by rw [refProg, refProg]; exact refProg_files _

theorem refResolve_files (d : Option Entry) (e : Entry) : refResolve E' r C d e = refResolve E r C d e := by
  have hf : refFunction E' r C = refFunction E r C := by
    funext d e
    unfold refFunction refCfg
    simp only [refText_files]
  have hd : refDir E' r C = refDir E r C := by
    funext o d b
    unfold refDir refCfg
    simp only [refText_files]
  have ho : refOptions E' r C = refOptions E r C := by
    funext d e
    unfold refOptions
    simp only [refInterp_files]
  have hm : ∀ (C : Ctx) key t dir vs, refMapped E' r C key t dir vs = refMapped E r C key t dir vs := by
    intro C key t dir vs
    induction vs with
    | nil => rfl
    | cons v vs ih => rw [refMapped, refMapped, ih]; unfold refCfg; rw [refText_files]
  have hl : refLoc E' r C = refLoc E r C := by
    funext dir l
    cases l <;> simp only [refLoc, refCfg, refText_files, hm]
  have hls : ∀ dir ls, refLocs E' r C dir ls = refLocs E r C dir ls := by
    intro dir ls
    induction ls with
    | nil => rfl
    | cons l ls ih => rw [refLocs, refLocs, ih, hl]
  have hlo : refLocations E' r C = refLocations E r C := by
    funext dir ls
    cases ls with
    | none => rfl
    | some ls => rw [refLocations, refLocations, hls]
  unfold refResolve
  rw [hf, hd, ho, hlo]
  rfl

theorem refLevels_files (c : Cfg) (es : List Entry) : refLevels E' r C c es = refLevels E r C c es := by
  have ha : ∀ d es, refResolveAll E' r C d es = refResolveAll E r C d es := by
    intro d es
    induction es with
    | nil => rfl
    | cons e es ih => rw [refResolveAll, refResolveAll, ih, refResolve_files]
  unfold refLevels
  simp only [refResolve_files, ha]

end

/-- Before the configuration is resolved, nothing is read. -/
theorem ref_none_files (E : Env) (p : Str) (ry rj : Str → FileRes) : ∀ n, ref (withFiles E p ry rj) none n = ref E none n
  | 0 => rfl
  | n + 1 => by
    rw [ref, ref, ref_none_files E p ry rj n]
    have hc : refCall (withFiles E p ry rj) none (ref E none n) = refCall E none (ref E none n) := by
      funext C f o k
      cases f <;> first | rfl | exact refProg_files E p ry rj _ C _
    have hi : refInterp (withFiles E p ry rj) (ref E none n) = refInterp E (ref E none n) := by
      funext C a v
      exact refInterp_files E p ry rj _ C a v
    have hl : refLookup (withFiles E p ry rj) none (ref E none n) = refLookup E none (ref E none n) := by
      funext C k o
      unfold refLookup
      rw [hc, hi]
    rw [hc, hi, hl]

/-! ### Answers that are the same -/

/-- Two answers are the same, and results have a property. -/
def Alike {α : Type} (Q : α → Prop) (x y : Ans α) : Prop := x = y ∧ ∀ a, x = some (.ok a) → Q a

namespace Alike
variable {α β : Type}

theorem pure {Q : α → Prop} {a : α} (h : Q a) : Alike Q (Pure.pure a : Ans α) (Pure.pure a) :=
  ⟨rfl, fun b hb => by cases hb; exact h⟩

theorem never {Q : α → Prop} : Alike Q (Ans.never : Ans α) Ans.never := ⟨rfl, fun _ h => nomatch h⟩

theorem fail {Q : α → Prop} {e : Err} : Alike Q (Ans.fail e : Ans α) (Ans.fail e) := ⟨rfl, fun _ h => nomatch h⟩

theorem of {Q : α → Prop} {r : Res α} (h : ∀ a, r = .ok a → Q a) : Alike Q (Ans.of r) (Ans.of r) :=
  ⟨rfl, fun a ha => h a (Option.some.inj ha)⟩

theorem bind {Q : α → Prop} {R : β → Prop} {x y : Ans α} {f g : α → Ans β} (h : Alike Q x y)
    (hf : ∀ a, Q a → Alike R (f a) (g a)) : Alike R (x >>= f) (y >>= g) := by
  obtain ⟨rfl, hq⟩ := h
  match x, hq with
  | none, _ => exact never
  | some (.ok a), hq => exact hf a (hq a rfl)
  | some (.panic e), _ => exact fail

theorem post {Q R : α → Prop} {x y : Ans α} (h : Alike Q x y) (hr : ∀ a, Q a → R a) : Alike R x y :=
  ⟨h.1, fun a ha => hr a (h.2 a ha)⟩

end Alike

/-- What is known of a set of keys and variables, without regard to files. -/
structure Shut (E : Env) (T : Str → Prop) (K : Referent → Prop) (sc : Scope) : Prop where
  nil : T []
  append : ∀ {s t}, T s → T t → T (s ++ t)
  sub : ∀ s, T s → RefersIn T K s
  text : ∀ v, Clean T v → T (E.toStr v)
  options : K (.key "lookup_options".toList)
  again : ∀ r k, K (.key r) → newKey r = .ok k → K (.key k.root)
  vars : ∀ n v, K (.var n) → sc.get n = some v → WithinV T K v
  dig : ∀ f (k : Key) v, Loads E (.dig f) → K (.key k.root) → f k.parts = .ok (some v) → WithinV T K (k.bury v)
  env : ∀ q v, K (.key q) → envLookup E q = some v → WithinV T K v
  scope : ∀ q v, K (.key q) → sc.get q = some v → WithinV T K v
  custom : ∀ f o q, Custom E f → K (.key q) → WithinProg T K sc (f o q)
  conv : ∀ t x as y, WithinV T K x → (∀ a ∈ as.getD [], WithinV T K a) → E.newValue t x as = .ok y → WithinV T K y

/-- A lookup function that fits, if it is a user's. -/
def WithinFn (T : Str → Prop) (K : Referent → Prop) (sc : Scope) : LkFn → Prop
  | .custom f => ∀ o q, K (.key q) → WithinProg T K sc (f o q)
  | _ => True

structure RefAlike (T : Str → Prop) (K : Referent → Prop) (sc : Scope) (r r' : Ref) : Prop where
  lookup : ∀ C k o, C.scope = sc → K (.key k.root) → Alike (CleanO T) (r.lookup C k o) (r'.lookup C k o)
  interp : ∀ C a v, C.scope = sc → WithinV T K v → Alike (CleanO T) (r.interp C a v) (r'.interp C a v)
  call : ∀ C f o q, C.scope = sc → K (.key q) → WithinFn T K sc f → Alike (CleanO (RefersIn T K)) (r.call C f o q) (r'.call C f o q)

section
variable {E : Env} {T : Str → Prop} {K : Referent → Prop} {sc : Scope}

theorem Shut.in_ {v : Value} (hK : Shut E T K sc) (h : Clean T v) : WithinV T K v := clean_mono hK.sub h

theorem Shut.inO {v : Option Value} (hK : Shut E T K sc) (h : CleanO T v) : CleanO (RefersIn T K) v :=
  fun x hx => hK.in_ (h x hx)

theorem Shut.textOf {v : Option Value} (hK : Shut E T K sc) (h : CleanO T v) : T (E.textOf v) := by
  cases v with
  | none => exact hK.nil
  | some x => exact hK.text x (cleanO_some.1 h)

theorem Shut.tidy (hK : Shut E T K sc) {ts : List Tok} (ht : TidyToks T ts) : ∀ {o : Str}, Rend T ts o → T o := by
  induction ht with
  | nil => intro o h; cases h; exact hK.nil
  | text hs _ ih =>
    intro o h
    obtain ⟨o', rfl, h'⟩ := h.chars
    exact hK.append hs (ih h')
  | expr he _ ih =>
    intro o h
    cases h with
    | expr h1 h2 => exact hK.append (h1 he) (ih h2)

theorem Shut.unmarked (hK : Shut E T K sc) {s : Str} (h : RefersIn T K s) (hm : hasMarker s = false) : T s := by
  have hu : ¬Marked s := fun h => by rw [(hasMarker_iff s).2 h] at hm; cases hm
  exact hK.tidy (h.1 _ (splits_unmarked hu)) (Rend.self s)

mutual
theorem Shut.unmarkedV (hK : Shut E T K sc) : ∀ v, WithinV T K v → marked v = false → Clean T v
  | .str s, h, hm => clean_str.2 (hK.unmarked (clean_str.1 h) (by simpa [marked] using hm))
  | .arr vs, h, hm => clean_arr.2 (hK.unmarkedL vs (clean_arr.1 h) (by simpa [marked] using hm))
  | .map es, h, hm => clean_map.2 (hK.unmarkedE es (clean_map.1 h) (by simpa [marked] using hm))
  | .null, _, _ => clean_null
  | .bool _, _, _ => fun _ hs => nomatch hs
  | .int _, _, _ => clean_int
  | .sensitive _, _, _ => fun _ hs => nomatch hs
  | .opaque _, _, _ => fun _ hs => nomatch hs
theorem Shut.unmarkedL (hK : Shut E T K sc) : ∀ vs : List Value, (∀ v ∈ vs, WithinV T K v) → markedL vs = false → ∀ v ∈ vs, Clean T v
  | [], _, _ => fun _ h => nomatch h
  | v :: vs, h, hm => by
    rw [markedL, Bool.or_eq_false_iff] at hm
    intro w hw
    rcases List.mem_cons.1 hw with h' | hw
    · rw [h']; exact hK.unmarkedV v (h v (List.mem_cons_self ..)) hm.1
    · exact hK.unmarkedL vs (fun x hx => h x (List.mem_cons_of_mem _ hx)) hm.2 w hw
theorem Shut.unmarkedE (hK : Shut E T K sc) : ∀ es : List (Value × Value), (∀ e ∈ es, WithinV T K e.1 ∧ WithinV T K e.2) → markedE es = false →
    ∀ e ∈ es, Clean T e.1 ∧ Clean T e.2
  | [], _, _ => fun _ h => nomatch h
  | (k, v) :: es, h, hm => by
    rw [markedE, Bool.or_eq_false_iff, Bool.or_eq_false_iff] at hm
    intro w hw
    have h1 := h (k, v) (List.mem_cons_self ..)
    rcases List.mem_cons.1 hw with rfl | hw
    · exact ⟨hK.unmarkedV k h1.1 hm.1.1, hK.unmarkedV v h1.2 hm.1.2⟩
    · exact hK.unmarkedE es (fun x hx => h x (List.mem_cons_of_mem _ hx)) hm.2 w hw
end

theorem cleanO_digPure {p : Str → Prop} {k : Key} {v : Option Value} (h : CleanO p v) : CleanO p (v.bind k.digPure) := by
  have hp : ∀ (ps : List Part) (v w : Value), Clean p v → digParts ps v = some w → Clean p w := by
    intro ps
    induction ps with
    | nil => intro v w hv hw; cases hw; exact hv
    | cons q ps ih =>
      intro v w hv hw
      rw [digParts] at hw
      cases hd : digSegment q v with
      | none => rw [hd] at hw; cases hw
      | some x => rw [hd] at hw; exact ih x w (clean_digSegment hv hd) hw
  intro w hw
  cases v with
  | none => cases hw
  | some v => exact hp _ v w (cleanO_some.1 h) hw

/-! ### Interpolation -/

variable {r r' : Ref} {C : Ctx}

theorem refVar_alike (hK : Shut E T K sc) (h : RefAlike T K sc r r') (hC : C.scope = sc) (a : Bool) {x : Str}
    (hx : ∀ k, newKey x = .ok k → K (.var k.root)) : Alike (CleanO T) (refVar r C a x) (refVar r' C a x) := by
  refine .bind (.of (Q := fun k => newKey x = .ok k) (fun _ h => h)) (fun k hk => ?_)
  rw [hC]
  cases hs : sc.get k.root with
  | none => exact .pure cleanO_none
  | some v => exact .bind (h.interp C a v hC (hK.vars _ _ (hx k hk) hs)) (fun w hw => .pure (cleanO_digPure hw))

theorem refLook_alike (h : RefAlike T K sc r r') (hC : C.scope = sc) {x : Str}
    (hx : ∀ k, newKey x = .ok k → K (.key k.root)) : Alike (CleanO T) (refLook r C x) (refLook r' C x) :=
  .bind (.of (Q := fun k => newKey x = .ok k) (fun _ h => h)) (fun k hk => h.lookup C k [] hC (hx k hk))

/-- What the argument of an expression is. -/
theorem method_refers {e x : Str} {a : Bool} {m : Method} (h : getMethodAndData (trimSpace e) a = .ok (m, x)) :
    (m = .scope → ∀ k, newKey x = .ok k → ExprRefers (trimSpace e) (.var k.root)) ∧
    (m = .lookup ∨ m = .alias ∨ m = .strictAlias → ∀ k, newKey x = .ok k → ExprRefers (trimSpace e) (.key k.root)) ∧
    (m = .literal → Call (trimSpace e) "literal".toList x) := by
  unfold getMethodAndData at h
  cases hm : methodMatch (trimSpace e) with
  | none =>
    rw [hm] at h
    cases h
    refine ⟨fun _ k hk => .var (fun name arg hc => ?_) hk, fun h => by simp at h, fun h => by simp at h⟩
    rw [← methodMatch_iff, hm] at hc
    cases hc
  | some nd =>
    obtain ⟨name, arg⟩ := nd
    rw [hm] at h
    have hc := (methodMatch_iff _ _ _).1 hm
    dsimp only at h
    split at h
    · cases h
    split at h
    · rename_i hn; subst hn; cases h
      exact ⟨fun h => by simp at h, fun _ k hk => .key hc (by simp [lookupFunctions]) hk, fun h => by simp at h⟩
    split at h
    · rename_i hn; subst hn; cases h
      exact ⟨fun h => by simp at h, fun _ k hk => .key hc (by simp [lookupFunctions]) hk, fun h => by simp at h⟩
    split at h
    · rename_i hn; cases h
      exact ⟨fun h => by simp at h, fun _ k hk => .key hc (by rcases hn with rfl | rfl <;> simp [lookupFunctions]) hk, fun h => by simp at h⟩
    split at h
    · rename_i hn; subst hn; cases h
      exact ⟨fun h => by simp at h, fun h => by simp at h, fun _ => hc⟩
    split at h
    · rename_i hn; subst hn; cases h
      exact ⟨fun _ k hk => .scope hc hk, fun h => by simp at h, fun h => by simp at h⟩
    · cases h

theorem refPiece_alike (hK : Shut E T K sc) (h : RefAlike T K sc r r') (hC : C.scope = sc) (a : Bool) {e : Str}
    (he : ∀ i, ExprRefers (trimSpace e) i → K i) :
    Alike (fun o => TidyExpr T e → T o) (refPiece E r C a e) (refPiece E r' C a e) := by
  unfold refPiece
  split
  · exact .pure (fun _ => hK.nil)
  · refine .bind (.of (Q := fun md => getMethodAndData (trimSpace e) a = .ok md) (fun _ h => h)) (fun md hmd => ?_)
    obtain ⟨m, x⟩ := md
    obtain ⟨h1, h2, h3⟩ := method_refers hmd
    cases m with
    | literal => exact .pure (fun ht => ht _ _ (trimSpace_trimmed e) (h3 rfl))
    | scope => exact .bind (refVar_alike hK h hC a (fun k hk => he _ (h1 rfl k hk))) (fun v hv => .pure (fun _ => hK.textOf hv))
    | lookup => exact .bind (refLook_alike h hC (fun k hk => he _ (h2 (.inl rfl) k hk))) (fun v hv => .pure (fun _ => hK.textOf hv))
    | «alias» => exact .fail
    | strictAlias => exact .fail

theorem refText_alike (hK : Shut E T K sc) (h : RefAlike T K sc r r') (hC : C.scope = sc) (a : Bool) : ∀ ts,
    (∀ e i, Tok.expr e ∈ ts → ExprRefers (trimSpace e) i → K i) → Alike (Rend T ts) (refText E r C a ts) (refText E r' C a ts)
  | [], _ => .pure .nil
  | .chr _ :: ts, hts => .bind (refText_alike hK h hC a ts (fun e i he => hts e i (List.mem_cons_of_mem _ he))) (fun _ ho => .pure (.chr ho))
  | .expr e :: ts, hts => .bind (refPiece_alike hK h hC a (fun i hi => hts e i (List.mem_cons_self ..) hi)) (fun _ h1 =>
      .bind (refText_alike hK h hC a ts (fun e i he => hts e i (List.mem_cons_of_mem _ he))) (fun _ h2 => .pure (.expr h1 h2)))

theorem refStr_alike (hK : Shut E T K sc) (h : RefAlike T K sc r r') (hC : C.scope = sc) (a : Bool) {s : Str} (hs : RefersIn T K s) :
    Alike (CleanO T) (refStr E r C a s) (refStr E r' C a s) := by
  have hr : ∀ e i, Tok.expr e ∈ tokens s → ExprRefers (trimSpace e) i → K i :=
    fun e i he hi => hs.2 _ e _ i (tokens_splits s) he (trimSpace_trimmed e) hi
  have hal : ∀ m x, aliasOf a (tokens s) = some (m, x) → ∀ k, newKey x = .ok k → K (.key k.root) := by
    intro m x hx k hk
    unfold aliasOf at hx
    split at hx
    · rename_i e he
      split at hx
      · cases hx
      · split at hx
        · rename_i hg; cases hx; exact hr e _ (by rw [he]; simp) ((method_refers hg).2.1 (.inr (.inl rfl)) k hk)
        · rename_i hg; cases hx; exact hr e _ (by rw [he]; simp) ((method_refers hg).2.1 (.inr (.inr rfl)) k hk)
        · cases hx
    · cases hx
  unfold refStr
  split
  · rename_i hx; exact refLook_alike h hC (hal _ _ hx)
  · rename_i hx
    refine .bind (refLook_alike h hC (hal _ _ hx)) (fun v hv => .pure (cleanO_some.2 ?_))
    cases v with
    | none => exact clean_str.2 hK.nil
    | some v => exact cleanO_some.1 hv
  · exact .bind (refText_alike hK h hC a _ hr) (fun t ht => .pure (cleanO_some.2 (clean_str.2 (hK.tidy (hs.1 _ (tokens_splits s)) ht))))

theorem clean_getD {p : Str → Prop} {v : Option Value} (h : CleanO p v) : Clean p (v.getD .null) := by
  cases v with
  | none => exact clean_null
  | some v => exact cleanO_some.1 h

mutual
theorem refInterp_alike (hK : Shut E T K sc) (h : RefAlike T K sc r r') (hC : C.scope = sc) (a : Bool) : ∀ v, WithinV T K v →
    Alike (CleanO T) (refInterp E r C a v) (refInterp E r' C a v)
  | .str s, hv => by rw [refInterp, refInterp]; exact refStr_alike hK h hC a (clean_str.1 hv)
  | .arr vs, hv => by
    rw [refInterp, refInterp]
    exact .bind (refList_alike hK h hC a vs (clean_arr.1 hv)) (fun _ hw => .pure (cleanO_some.2 (clean_arr.2 hw)))
  | .map es, hv => by
    rw [refInterp, refInterp]
    split
    · exact .bind (refEntries_alike hK h hC a [] es clean_nil (clean_map.1 hv)) (fun _ hw => .pure (cleanO_some.2 hw))
    · rename_i hm
      exact .pure (cleanO_some.2 (hK.unmarkedV _ hv (by rw [marked]; simpa using hm)))
  | .null, _ => by rw [refInterp, refInterp] <;> first | exact .pure (cleanO_some.2 clean_null) | simp
  | .bool _, _ => by rw [refInterp, refInterp] <;> first | exact .pure (cleanO_some.2 (fun _ hs => nomatch hs)) | simp
  | .int _, _ => by rw [refInterp, refInterp] <;> first | exact .pure (cleanO_some.2 (fun _ hs => nomatch hs)) | simp
  | .sensitive _, _ => by rw [refInterp, refInterp] <;> first | exact .pure (cleanO_some.2 (fun _ hs => nomatch hs)) | simp
  | .opaque _, _ => by rw [refInterp, refInterp] <;> first | exact .pure (cleanO_some.2 (fun _ hs => nomatch hs)) | simp
theorem refList_alike (hK : Shut E T K sc) (h : RefAlike T K sc r r') (hC : C.scope = sc) (a : Bool) : ∀ vs : List Value, (∀ v ∈ vs, WithinV T K v) →
    Alike (fun ws => ∀ w ∈ ws, Clean T w) (refList E r C a vs) (refList E r' C a vs)
  | [], _ => by rw [refList, refList]; exact .pure (fun _ h => nomatch h)
  | v :: vs, hv => by
    rw [refList, refList]
    refine .bind (refInterp_alike hK h hC a v (hv v (List.mem_cons_self ..))) (fun w hw =>
      .bind (refList_alike hK h hC a vs (fun x hx => hv x (List.mem_cons_of_mem _ hx))) (fun ws hws => .pure ?_))
    intro x hx
    rcases List.mem_cons.1 hx with rfl | hx
    · exact clean_getD hw
    · exact hws x hx
theorem refEntries_alike (hK : Shut E T K sc) (h : RefAlike T K sc r r') (hC : C.scope = sc) (a : Bool) : ∀ (cp : Entries) (es : List (Value × Value)),
    Clean T (.map cp) → (∀ e ∈ es, WithinV T K e.1 ∧ WithinV T K e.2) →
    Alike (fun ws => Clean T (.map ws)) (refEntries E r C a cp es) (refEntries E r' C a cp es)
  | cp, [], hcp, _ => by rw [refEntries, refEntries]; exact .pure hcp
  | cp, (k, v) :: es, hcp, hes => by
    rw [refEntries, refEntries]
    have h1 := hes (k, v) (List.mem_cons_self ..)
    exact .bind (refInterp_alike hK h hC a k h1.1) (fun x hx => .bind (refInterp_alike hK h hC a v h1.2) (fun y hy =>
      refEntries_alike hK h hC a _ es (clean_put hcp (clean_getD hx) (clean_getD hy)) (fun e he => hes e (List.mem_cons_of_mem _ he))))
end

theorem refProg_alike (hK : Shut E T K sc) (h : RefAlike T K sc r r') (hC : C.scope = sc) {q : Prog} (hq : WithinProg T K sc q) :
    Alike (CleanO (RefersIn T K)) (refProg E r C q) (refProg E r' C q) := by
  induction hq with
  | ret hv => exact .pure hv
  | panic => exact .fail
  | interpolate hv _ ih => exact .bind (refInterp_alike hK h hC true _ hv) (fun x hx => ih x hx)
  | lookup hk _ ih =>
    exact .bind (.of (Q := fun k => newKey _ = .ok k) (fun _ h => h)) (fun kk hkk => .bind (h.lookup C kk _ hC (hk kk hkk)) (fun x hx => ih x hx))
  | explain _ ih => exact ih
  | scopeGet _ ih => rw [refProg, refProg, hC]; exact ih
  | cache => exact .never
  | cachedValue => exact .never

/-! ### Sources and merges -/

theorem refFirst_alike {p : Str → Prop} : ∀ {xs ys : List (Ans (Option Value))}, List.Forall₂ (Alike (CleanO p)) xs ys →
    Alike (CleanO p) (refFirst xs) (refFirst ys)
  | _, _, .nil => .pure cleanO_none
  | _, _, .cons h hs => .bind h (fun v hv => by
      cases v
      · exact refFirst_alike hs
      · exact .pure hv)

theorem refFound_alike {p : Str → Prop} : ∀ {xs ys : List (Ans (Option Value))}, List.Forall₂ (Alike (CleanO p)) xs ys →
    Alike (fun vs => ∀ v ∈ vs, Clean p v) (refFound xs) (refFound ys)
  | _, _, .nil => .pure (fun _ h => nomatch h)
  | _, _, .cons h hs => .bind h (fun v hv => .bind (refFound_alike hs) (fun vs hvs => .pure (fun x hx => by
      rcases List.mem_append.1 hx with hx | hx
      · cases v with
        | none => cases hx
        | some v => rw [List.mem_singleton.1 hx]; exact cleanO_some.1 hv
      · exact hvs x hx)))

theorem refCombine_clean {p : Str → Prop} (st : Strategy) {vs : List Value} (h : ∀ v ∈ vs, Clean p v) : CleanO p (refCombine st vs) := by
  cases vs with
  | nil => exact cleanO_none
  | cons v vs =>
    refine cleanO_some.2 ?_
    have : ∀ (vs : List Value) (a : Value), Clean p a → (∀ v ∈ vs, Clean p v) → Clean p (vs.foldl st.merge a) := by
      intro vs
      induction vs with
      | nil => intro a ha _; exact ha
      | cons b vs ih =>
        intro a ha hb
        exact ih _ (clean_strategyMerge st ha (hb b (List.mem_cons_self ..))) (fun v hv => hb v (List.mem_cons_of_mem _ hv))
    exact this vs _ (clean_convertValue st (h v (List.mem_cons_self ..))) (fun w hw => h w (List.mem_cons_of_mem _ hw))

theorem refMerge_alike {p : Str → Prop} (st : Strategy) {xs ys : List (Ans (Option Value))} (h : List.Forall₂ (Alike (CleanO p)) xs ys) :
    Alike (CleanO p) (refMerge st xs) (refMerge st ys) := by
  have one : ∀ (st : Strategy) {x y : Ans (Option Value)}, Alike (CleanO p) x y →
      Alike (CleanO p) (do let v ← x; Pure.pure (v.map st.single)) (do let v ← y; Pure.pure (v.map st.single)) :=
    fun st _ _ hx => .bind hx (fun v hv => .pure (fun w hw => by
      cases v with
      | none => cases hw
      | some v => cases hw; exact clean_single st (cleanO_some.1 hv)))
  have many : ∀ (st : Strategy) {xs ys : List (Ans (Option Value))}, List.Forall₂ (Alike (CleanO p)) xs ys →
      Alike (CleanO p) (do let vs ← refFound xs; Pure.pure (refCombine st vs)) (do let vs ← refFound ys; Pure.pure (refCombine st vs)) :=
    fun st _ _ hx => .bind (refFound_alike hx) (fun vs hv => .pure (refCombine_clean st hv))
  match st, h with
  | .first, h => exact refFirst_alike h
  | .unique, .nil => exact many .unique .nil
  | .hash, .nil => exact many .hash .nil
  | .deep o, .nil => exact many (.deep o) .nil
  | .unique, .cons h .nil => exact one .unique h
  | .hash, .cons h .nil => exact one .hash h
  | .deep o, .cons h .nil => exact one (.deep o) h
  | .unique, .cons h (.cons h' hs) => exact many .unique (.cons h (.cons h' hs))
  | .hash, .cons h (.cons h' hs) => exact many .hash (.cons h (.cons h' hs))
  | .deep o, .cons h (.cons h' hs) => exact many (.deep o) (.cons h (.cons h' hs))

theorem forall₂_map {α β : Type} {R : β → β → Prop} {f g : α → β} : ∀ {xs : List α}, (∀ x ∈ xs, R (f x) (g x)) →
    List.Forall₂ R (xs.map f) (xs.map g)
  | [], _ => .nil
  | x :: _, h => .cons (h x (List.mem_cons_self ..)) (forall₂_map (fun y hy => h y (List.mem_cons_of_mem _ hy)))

/-- The data of an entry is the same in two worlds, for the given keys. -/
def HashAlike (T : Str → Prop) (K : Referent → Prop) (x y : Res Entries) : Prop :=
  (∃ e, x = .panic e ∧ y = .panic e) ∨
  ∃ h h', x = .ok h ∧ y = .ok h' ∧ ∀ q, K (.key q) → Entries.getS h q = Entries.getS h' q ∧ CleanO (RefersIn T K) (Entries.getS h q)

/-- That of an entry at all the places where it is read. -/
def EntryAlike (E E' : Env) (T : Str → Prop) (K : Referent → Prop) (e : Entry) : Prop :=
  ∀ n, e.function = some (.dataHash, n) →
    (e.locations = none → HashAlike T K (refHash E e n (refOpts e none)) (refHash E' e n (refOpts e none))) ∧
    ∀ ls, e.locations = some ls → ∀ l ∈ ls, HashAlike T K (refHash E e n (refOpts e (some l))) (refHash E' e n (refOpts e (some l)))

variable {p : Str} {ry rj : Str → FileRes}

theorem loads_of {e : Entry} {n : Str} {f : Fn} (h : loadFunction E e n = .ok (some f)) : Loads E f := by
  unfold loadFunction at h
  split at h
  · rename_i hf; cases h; exact ⟨n, .inl hf⟩
  · split at h
    · exact ⟨n, .inr ⟨_, h⟩⟩
    · cases h

theorem withinFn_of (hK : Shut E T K sc) {f : LkFn} (h : ∀ g, f = .custom g → Custom E g) : WithinFn T K sc f := by
  cases f with
  | custom g => exact fun o q hq => hK.custom g o q (h g rfl) hq
  | _ => trivial

theorem refSource_alike (hK : Shut E T K sc) (h : RefAlike T K sc r r') (hC : C.scope = sc) {k : Key} (hk : K (.key k.root)) {e : Entry}
    {l : Option Loc}
    (hh : ∀ n, e.function = some (.dataHash, n) → HashAlike T K (refHash E e n (refOpts e l)) (refHash (withFiles E p ry rj) e n (refOpts e l))) :
    Alike (CleanO (RefersIn T K)) (refSource E r C k e l) (refSource (withFiles E p ry rj) r' C k e l) := by
  unfold refSource
  match hf : e.function with
  | none => exact .fail
  | some (.dataDig, n) =>
    refine .bind (.of (Q := fun f => loadFunction E e n = .ok f) (fun _ h => h)) (fun f hl => ?_)
    rcases f with _ | (f | f | f)
    · exact .pure cleanO_none
    · exact .fail
    · refine .bind (.of (Q := fun v => f k.parts = .ok v) (fun _ h => h)) (fun v hv => .pure (fun w hw => ?_))
      cases v with
      | none => cases hw
      | some v => cases hw; exact hK.dig f k v (loads_of hl) hk hv
    · exact .fail
  | some (.dataHash, n) =>
    rcases hh n hf with ⟨er, h1, h2⟩ | ⟨hs, hs', h1, h2, h3⟩
    · dsimp only; rw [h1, h2]; exact .fail
    · dsimp only
      rw [h1, h2]
      show Alike _ (match Entries.getS hs k.root with | some v => refInterp E r C true v | none => Pure.pure none)
        (match Entries.getS hs' k.root with | some v => refInterp (withFiles E p ry rj) r' C true v | none => Pure.pure none)
      obtain ⟨h4, h5⟩ := h3 _ hk
      rw [← h4]
      cases hg : Entries.getS hs k.root with
      | none => exact .pure cleanO_none
      | some v =>
        dsimp only
        rw [refInterp_files E p ry rj r']
        exact (refInterp_alike hK h hC true v (h5 v hg)).post (fun _ hw => hK.inO hw)
  | some (.lookupKey, n) =>
    dsimp only
    split
    · exact .pure (fun v hv => hK.env _ v hk hv)
    · split
      · rw [hC]; exact .pure (fun v hv => hK.scope _ v hk hv)
      · refine .bind (.of (Q := fun f => loadFunction E e n = .ok f) (fun _ h => h)) (fun f hl => ?_)
        rcases f with _ | (f | f | f)
        · exact .pure cleanO_none
        · exact .fail
        · exact .fail
        · exact h.call C f _ _ hC hk (withinFn_of hK (fun g hg => .inl (hg ▸ loads_of hl)))

theorem refEntry_alike (hK : Shut E T K sc) (h : RefAlike T K sc r r') (hC : C.scope = sc) {k : Key} (hk : K (.key k.root)) (st : Strategy)
    {e : Entry} (he : EntryAlike E (withFiles E p ry rj) T K e) :
    Alike (CleanO (RefersIn T K)) (refEntry E r C k st e) (refEntry (withFiles E p ry rj) r' C k st e) := by
  have hat : ∀ ls, e.locations = some ls → ∀ l ∈ ls, Alike (CleanO (RefersIn T K)) (refAt E r C k e l) (refAt (withFiles E p ry rj) r' C k e l) := by
    intro ls hls l hl
    have : ∀ n, e.function = some (.dataHash, n) →
        HashAlike T K (refHash E e n (refOpts e (some l))) (refHash (withFiles E p ry rj) e n (refOpts e (some l))) :=
      fun n hn => (he n hn).2 ls hls l hl
    unfold refAt
    split
    · exact refSource_alike hK h hC hk this
    · exact refSource_alike hK h hC hk this
    · exact .pure cleanO_none
  unfold refEntry
  split
  · rename_i hl; exact refSource_alike hK h hC hk (fun n hn => (he n hn).1 hl)
  · rename_i l hl; exact hat _ hl l (List.mem_cons_self ..)
  · rename_i ls _ hl; exact refMerge_alike st (forall₂_map (hat _ hl))

/-- Two hierarchies have the same values for the given keys, where nested lookups are answered as given. -/
def HierAlike (E E' : Env) (T : Str → Prop) (K : Referent → Prop) (sc : Scope) (P : Ref → Prop) (es es' : List Entry) : Prop :=
  ∀ r r' C k st, P r → RefAlike T K sc r r' → C.scope = sc → K (.key k.root) →
    Alike (CleanO (RefersIn T K)) (refHierarchy E r C k st es) (refHierarchy E' r' C k st es')

theorem hierAlike (hK : Shut E T K sc) {P : Ref → Prop} {es : List Entry} (hes : ∀ e ∈ es, EntryAlike E (withFiles E p ry rj) T K e) :
    HierAlike E (withFiles E p ry rj) T K sc P es es :=
  fun _ _ _ _ st _ h hC hk => refMerge_alike st (forall₂_map (fun e he => refEntry_alike hK h hC hk st (hes e he)))

/-! ### Lookups -/

/-- Two resolved configurations have the same values for the given keys. -/
inductive SiteAlike (E E' : Env) (T : Str → Prop) (K : Referent → Prop) (sc : Scope) (P : Ref → Prop) : Option Site → Option Site → Prop
  | none : SiteAlike E E' T K sc P none none
  | some {es es' o} : HierAlike E E' T K sc P es es' → CleanO (RefersIn T K) (o.map .map) →
      SiteAlike E E' T K sc P (some ⟨es, o⟩) (some ⟨es', o⟩)

theorem asMap_clean {p : Str → Prop} {v : Option Value} (h : CleanO p v) : CleanO p ((asMap v).map .map) := by
  intro w hw
  cases ha : asMap v with
  | none => rw [ha] at hw; cases hw
  | some m =>
    rw [ha] at hw
    cases hw
    rw [asMap_some ha] at h
    exact cleanO_some.1 h

theorem optionsOf_clean {p : Str → Prop} {es : List Entry} {o : Option Entries} (h : CleanO p (o.map .map)) (k : Key) :
    CleanO p ((Site.optionsOf ⟨es, o⟩ k).map .map) := by
  unfold Site.optionsOf
  cases o with
  | none => exact cleanO_none
  | some lo => exact asMap_clean (fun v hv => clean_getS (cleanO_some.1 h) hv)

theorem convert_within (hK : Shut E T K sc) {v : Option Value} (hv : CleanO (RefersIn T K) v) {lo : Option Entries}
    (hlo : CleanO (RefersIn T K) (lo.map .map)) {c : Option (Nat × Option (List Value))} (hc : extractConversion E lo = .ok c)
    {y : Option Value} (h : convert E v c = .ok y) : CleanO (RefersIn T K) y := by
  unfold convert at h
  split at h
  · rename_i x t as
    cases hn : E.newValue t x as with
    | panic e => rw [hn] at h; cases h
    | ok z =>
      rw [hn] at h
      cases h
      exact cleanO_some.2 (hK.conv t x as z (cleanO_some.1 hv) (extractConversion_args hlo hc) hn)
  · cases h; exact hv

theorem refConfig_alike (hK : Shut E T K sc) (h : RefAlike T K sc r r') (hC : C.scope = sc) {P : Ref → Prop} (hP : P r) {x x' : Option Site}
    (hx : SiteAlike E (withFiles E p ry rj) T K sc P x x') (o : Entries) {q : Str} (hq : K (.key q)) :
    Alike (CleanO (RefersIn T K)) (refConfig E x r C o q) (refConfig (withFiles E p ry rj) x' r' C o q) := by
  unfold refConfig
  cases hx with
  | none => exact .never
  | some hh ho =>
    refine .bind (.of (Q := fun k => newKey q = .ok k) (fun _ h => h)) (fun k hk => ?_)
    have hk' := hK.again _ _ hq hk
    rcases hw : C.within with _ | _ | _ | st
    · dsimp only
      refine .bind (.of (Q := fun _ => True) (fun _ _ => trivial)) (fun st _ => ?_)
      refine .bind (.of (Q := fun c => extractConversion E (Site.optionsOf _ k) = .ok c) (fun _ h => h)) (fun c hc => ?_)
      refine .bind (hh r r' _ k st hP h hC hk') (fun v hv => ?_)
      exact .of (fun y hy => convert_within hK hv (optionsOf_clean ho k) hc hy)
    · exact .pure (optionsOf_clean ho k)
    · exact .fail
    · exact hh r r' C k st hP h hC hk'

theorem refMux_alike (hK : Shut E T K sc) (h : RefAlike T K sc r r') (hC : C.scope = sc) (o : Entries) {q : Str} (hq : K (.key q)) :
    Alike (CleanO (RefersIn T K)) (refMux E r C o q) (refMux (withFiles E p ry rj) r' C o q) := by
  unfold refMux
  show Alike _ _ (match E.muxFns with | none => _ | some fs => _)
  cases hm : E.muxFns with
  | none => exact .pure cleanO_none
  | some fs =>
    have hf : ∀ f ∈ fs, WithinFn T K sc f :=
      fun f hf => withinFn_of hK (fun g hg => .inr (.inr ⟨fs, hm, hg ▸ hf⟩))
    refine .bind (refMerge_alike _ (forall₂_map (fun f hf' => h.call _ f o q hC hq (hf f hf')))) (fun lo hlo => ?_)
    refine .bind (.of (Q := fun _ => True) (fun _ _ => trivial)) (fun _ _ => ?_)
    dsimp only
    refine .bind (.of (Q := fun _ => True) (fun _ _ => trivial)) (fun st _ => ?_)
    refine .bind (.of (Q := fun c => extractConversion E (asMap lo) = .ok c) (fun _ h => h)) (fun c hc => ?_)
    refine .bind (refMerge_alike _ (forall₂_map (fun f hf' => h.call _ f o q hC hq (hf f hf')))) (fun v hv => ?_)
    exact .of (fun y hy => convert_within hK hv (asMap_clean hlo) hc hy)

theorem refCall_alike (hK : Shut E T K sc) (h : RefAlike T K sc r r') (hC : C.scope = sc) {P : Ref → Prop} (hP : P r) {x x' : Option Site}
    (hx : SiteAlike E (withFiles E p ry rj) T K sc P x x') {f : LkFn} (hf : WithinFn T K sc f) (o : Entries) {q : Str} (hq : K (.key q)) :
    Alike (CleanO (RefersIn T K)) (refCall E x r C f o q) (refCall (withFiles E p ry rj) x' r' C f o q) := by
  cases f with
  | config => exact refConfig_alike hK h hC hP hx o hq
  | custom f =>
    show Alike _ (refProg E r C (f o q)) (refProg (withFiles E p ry rj) r' C (f o q))
    rw [refProg_files E p ry rj r']
    exact refProg_alike hK h hC (hf o q hq)
  | env => exact .pure (fun v hv => hK.env _ v hq hv)
  | scope =>
    show Alike _ (Pure.pure (C.scope.get q)) (Pure.pure (C.scope.get q))
    rw [hC]
    exact .pure (fun v hv => hK.scope _ v hq hv)
  | notFunction => exact .pure cleanO_none
  | mux => exact refMux_alike hK h hC o hq
  | yaml => exact .never
  | module => exact .never

theorem final_scope (C : Ctx) : C.final.scope = C.scope := by
  unfold Ctx.final
  split <;> rfl

theorem refLookup_alike (hK : Shut E T K sc) (h : RefAlike T K sc r r') (hC : C.scope = sc) {P : Ref → Prop} (hP : P r) {x x' : Option Site}
    (hx : SiteAlike E (withFiles E p ry rj) T K sc P x x') {k : Key} (hk : K (.key k.root)) (o : Entries) :
    Alike (CleanO T) (refLookup E x r C k o) (refLookup (withFiles E p ry rj) x' r' C k o) := by
  unfold refLookup
  split
  · exact .pure cleanO_none
  · refine .bind (refCall_alike hK h hC hP hx (withinFn_of hK (fun g hg => .inr (.inl hg))) o hk) (fun v hv => ?_)
    cases v with
    | none => exact .pure cleanO_none
    | some v =>
      dsimp only
      rw [refInterp_files E p ry rj r']
      exact .bind (refInterp_alike hK h (by rw [final_scope, hC]) true v (cleanO_some.1 hv)) (fun w hw => .pure (cleanO_digPure hw))

theorem ref_alike (hK : Shut E T K sc) {P : Ref → Prop} {x x' : Option Site} (hP : ∀ n, P (ref E x n))
    (hx : SiteAlike E (withFiles E p ry rj) T K sc P x x') : ∀ n, RefAlike T K sc (ref E x n) (ref (withFiles E p ry rj) x' n)
  | 0 => ⟨fun _ _ _ _ _ => .never, fun _ _ _ _ _ => .never, fun _ _ _ _ _ _ _ => .never⟩
  | n + 1 => by
    have ih := ref_alike hK hP hx n
    refine ⟨fun C k o hC hk => refLookup_alike hK ih hC (hP n) hx hk o, fun C a v hC hv => ?_, fun C f o q hC hq hf => refCall_alike hK ih hC (hP n) hx hf o hq⟩
    show Alike _ _ (refInterp (withFiles E p ry rj) _ C a v)
    rw [refInterp_files E p ry rj]
    exact refInterp_alike hK ih hC a v hv

/-! ### From the configuration on -/

/-- How nested lookups are answered in a session whose configuration is resolved to the given entries: while the lookup options
are read, and afterwards. -/
def OneOf (E : Env) (n : Nat) (es : List Entry) (r : Ref) : Prop := r = ref E none n ∨ ∃ o m, r = ref E (some ⟨es, o⟩) m

/-- Two configurations are resolved to hierarchies with the same values for the given keys, in all worlds of sufficient
depth. Of the default hierarchy it matters only whether it has errors. -/
theorem refAnswer_alike_upto (hK : Shut E T K sc) {c c' : Cfg} {n : Nat}
    (hl : (∃ e : Option Err, refLevels E (ref E none n) ⟨sc, .call⟩ c c.hierarchy = e.map .panic ∧
        refLevels E (ref E none n) ⟨sc, .call⟩ c' c'.hierarchy = e.map .panic) ∨
      ∃ es es', HierAlike E (withFiles E p ry rj) T K sc (OneOf E n es) es es' ∧ refLevels E (ref E none n) ⟨sc, .call⟩ c c.hierarchy = some (.ok es) ∧
        refLevels E (ref E none n) ⟨sc, .call⟩ c' c'.hierarchy = some (.ok es'))
    (hd : (do let _ ← refLevels E (ref E none n) ⟨sc, .call⟩ c c.defaultHierarchy; pure () : Ans Unit) =
      (do let _ ← refLevels E (ref E none n) ⟨sc, .call⟩ c' c'.defaultHierarchy; pure ()))
    (hc : newCfg E.cfg E.configPath (E.readYaml E.configPath) = .ok c) (hc' : newCfg E.cfg p (ry p) = .ok c')
    {k : Key} (hk : K (.key k.root)) (o : Entries) (m : Nat) :
    refAnswer (withFiles E p ry rj) sc k o n m = refAnswer E sc k o n m := by
  unfold refAnswer
  split
  · rfl
  show (Ans.of (newCfg E.cfg p (ry p)) >>= _) = _
  rw [hc, hc']
  show (refSite (withFiles E p ry rj) (ref (withFiles E p ry rj) none n) ⟨sc, .call⟩ c' >>= _) = (refSite E (ref E none n) ⟨sc, .call⟩ c >>= _)
  rw [ref_none_files]
  unfold refSite
  rw [refLevels_files E p ry rj, refLevels_files E p ry rj]
  rcases hl with ⟨e, h1, h2⟩ | ⟨es, es', hh, h1, h2⟩
  · rw [h1, h2]
    cases e <;> rfl
  · rw [h1, h2]
    show ((refLevels E (ref E none n) ⟨sc, .call⟩ c' c'.defaultHierarchy >>= fun _ => _) >>= _) =
      ((refLevels E (ref E none n) ⟨sc, .call⟩ c c.defaultHierarchy >>= fun _ => _) >>= _)
    revert hd
    cases refLevels E (ref E none n) ⟨sc, .call⟩ c c.defaultHierarchy with
    | none =>
      intro hd
      cases h : refLevels E (ref E none n) ⟨sc, .call⟩ c' c'.defaultHierarchy with
      | none => rfl
      | some y =>
        rw [h] at hd
        cases y <;> cases hd
    | some x =>
      cases x with
      | panic e =>
        intro hd
        cases h : refLevels E (ref E none n) ⟨sc, .call⟩ c' c'.defaultHierarchy with
        | none => rw [h] at hd; cases hd
        | some y =>
          rw [h] at hd
          cases y with
          | ok => cases hd
          | panic e' => cases hd; rfl
      | ok ds =>
        intro hd
        obtain ⟨ds', h⟩ : ∃ ds', refLevels E (ref E none n) ⟨sc, .call⟩ c' c'.defaultHierarchy = some (.ok ds') := by
          cases h : refLevels E (ref E none n) ⟨sc, .call⟩ c' c'.defaultHierarchy with
          | none => rw [h] at hd; cases hd
          | some y =>
            rw [h] at hd
            cases y with
            | ok ds' => exact ⟨ds', rfl⟩
            | panic e' => cases hd
        rw [h]
        have h0 := ref_alike (p := p) (ry := ry) (rj := rj) hK (P := fun _ => True) (fun _ => trivial) .none n
        rw [ref_none_files E p ry rj] at h0
        obtain ⟨h3, h4⟩ := hh _ _ ⟨sc, .call⟩ lookupOptionsKey (.deep []) (.inl rfl) h0 rfl hK.options
        show ((refHierarchy (withFiles E p ry rj) (ref E none n) ⟨sc, .call⟩ lookupOptionsKey (.deep []) es' >>= fun _ => _) >>= _) =
          ((refHierarchy E (ref E none n) ⟨sc, .call⟩ lookupOptionsKey (.deep []) es >>= fun _ => _) >>= _)
        rw [← h3]
        match hv : refHierarchy E (ref E none n) ⟨sc, .call⟩ lookupOptionsKey (.deep []) es with
        | none => rfl
        | some (.panic e) => rfl
        | some (.ok lo) =>
          have hs : SiteAlike E (withFiles E p ry rj) T K sc (OneOf E n es) (some ⟨es, asMap lo⟩) (some ⟨es', asMap lo⟩) := .some hh (asMap_clean (h4 lo hv))
          exact (refLookup_alike hK (ref_alike hK (fun m => .inr ⟨_, m, rfl⟩) hs m) rfl (.inr ⟨_, m, rfl⟩) hs hk o).1.symm

/-- The same, with default hierarchies that are resolved to the same. -/
theorem refAnswer_alike (hK : Shut E T K sc) {c c' : Cfg} {n : Nat}
    (hl : (∃ e : Option Err, refLevels E (ref E none n) ⟨sc, .call⟩ c c.hierarchy = e.map .panic ∧
        refLevels E (ref E none n) ⟨sc, .call⟩ c' c'.hierarchy = e.map .panic) ∨
      ∃ es es', HierAlike E (withFiles E p ry rj) T K sc (OneOf E n es) es es' ∧ refLevels E (ref E none n) ⟨sc, .call⟩ c c.hierarchy = some (.ok es) ∧
        refLevels E (ref E none n) ⟨sc, .call⟩ c' c'.hierarchy = some (.ok es'))
    (hd : refLevels E (ref E none n) ⟨sc, .call⟩ c c.defaultHierarchy = refLevels E (ref E none n) ⟨sc, .call⟩ c' c'.defaultHierarchy)
    (hc : newCfg E.cfg E.configPath (E.readYaml E.configPath) = .ok c) (hc' : newCfg E.cfg p (ry p) = .ok c')
    {k : Key} (hk : K (.key k.root)) (o : Entries) (m : Nat) :
    refAnswer (withFiles E p ry rj) sc k o n m = refAnswer E sc k o n m :=
  refAnswer_alike_upto hK hl (by rw [hd]) hc hc' hk o m
end

end Hiera
