/- More depth does not change the answers of the reference (`Spec/Reference.lean`). -/
import Verif.Spec.Reference

set_option linter.unusedSectionVars false

set_option autoImplicit false

namespace Hiera
open Spec

/-- The second has the answer of the first, if that has one. -/
def AnsLe {α : Type} (x y : Ans α) : Prop := ∀ r, x = some r → y = some r

theorem AnsLe.rfl {α : Type} {x : Ans α} : AnsLe x x := fun _ h => h

theorem AnsLe.never {α : Type} {y : Ans α} : AnsLe (Ans.never : Ans α) y := fun _ h => nomatch h

theorem AnsLe.bind {α β : Type} {x y : Ans α} {f g : α → Ans β} (h : AnsLe x y) (hf : ∀ a, AnsLe (f a) (g a)) :
    AnsLe (x >>= f) (y >>= g) := by
  intro r hr
  match x, h with
  | none, _ => cases hr
  | some (.ok a), h => rw [h _ (Eq.refl _)]; exact hf a r hr
  | some (.panic e), h => rw [h _ (Eq.refl _)]; exact hr

theorem AnsLe.of_none {α : Type} {x y : Ans α} (h : AnsLe x y) (hy : y = none) : x = none := by
  cases hx : x with
  | none => exact (Eq.refl _)
  | some r => rw [h r hx] at hy; cases hy

theorem AnsLe.eq {α : Type} {x y : Ans α} (h : AnsLe x y) (hx : x ≠ none) : y = x := by
  cases hx' : x with
  | none => exact absurd hx' hx
  | some r => exact h r hx'

structure RefLe (r r' : Ref) : Prop where
  lookup : ∀ C k o, AnsLe (r.lookup C k o) (r'.lookup C k o)
  interp : ∀ C a v, AnsLe (r.interp C a v) (r'.interp C a v)
  call : ∀ C f o k, AnsLe (r.call C f o k) (r'.call C f o k)

section
variable {E : Env} {site : Option Site} {r r' : Ref} (h : RefLe r r') (C : Ctx)
include h

theorem refVar_le (a : Bool) (x : Str) : AnsLe (refVar r C a x) (refVar r' C a x) := by
  refine .bind .rfl (fun k => ?_)
  cases C.scope.get k.root with
  | none => exact .rfl
  | some v => exact .bind (h.interp C a v) (fun _ => .rfl)

theorem refLook_le (x : Str) : AnsLe (refLook r C x) (refLook r' C x) := .bind .rfl (fun _ => h.lookup _ _ _)

theorem refPiece_le (a : Bool) (e : Str) : AnsLe (refPiece E r C a e) (refPiece E r' C a e) := by
  unfold refPiece
  split
  · exact .rfl
  · refine .bind .rfl (fun mx => ?_)
    obtain ⟨m, x⟩ := mx
    cases m with
    | literal => exact .rfl
    | scope => exact .bind (refVar_le h C a x) (fun _ => .rfl)
    | lookup => exact .bind (refLook_le h C x) (fun _ => .rfl)
    | «alias» => exact .rfl
    | strictAlias => exact .rfl

theorem refText_le (a : Bool) : ∀ ts, AnsLe (refText E r C a ts) (refText E r' C a ts)
  | [] => .rfl
  | .chr _ :: ts => .bind (refText_le a ts) (fun _ => .rfl)
  | .expr e :: ts => .bind (refPiece_le h C a e) (fun _ => .bind (refText_le a ts) (fun _ => .rfl))

theorem refStr_le (a : Bool) (s : Str) : AnsLe (refStr E r C a s) (refStr E r' C a s) := by
  unfold refStr
  split
  · exact refLook_le h C _
  · exact .bind (refLook_le h C _) (fun _ => .rfl)
  · exact .bind (refText_le h C a _) (fun _ => .rfl)

mutual
theorem refInterp_le (a : Bool) : ∀ v, AnsLe (refInterp E r C a v) (refInterp E r' C a v)
  | .str s => by rw [refInterp, refInterp]; exact refStr_le h C a s
  | .arr vs => by rw [refInterp, refInterp]; exact .bind (refList_le a vs) (fun _ => .rfl)
  | .map es => by
    rw [refInterp, refInterp]
    split
    · exact .bind (refEntries_le a [] es) (fun _ => .rfl)
    · exact .rfl
  | .null => by rw [refInterp, refInterp] <;> first | exact .rfl | simp
  | .bool _ => by rw [refInterp, refInterp] <;> first | exact .rfl | simp
  | .int _ => by rw [refInterp, refInterp] <;> first | exact .rfl | simp
  | .sensitive _ => by rw [refInterp, refInterp] <;> first | exact .rfl | simp
  | .opaque _ => by rw [refInterp, refInterp] <;> first | exact .rfl | simp
theorem refList_le (a : Bool) : ∀ vs, AnsLe (refList E r C a vs) (refList E r' C a vs)
  | [] => by rw [refList, refList]; exact .rfl
  | v :: vs => by
    rw [refList, refList]
    exact .bind (refInterp_le a v) (fun _ => .bind (refList_le a vs) (fun _ => .rfl))
theorem refEntries_le (a : Bool) : ∀ cp es, AnsLe (refEntries E r C a cp es) (refEntries E r' C a cp es)
  | cp, [] => by rw [refEntries, refEntries]; exact .rfl
  | cp, (k, v) :: es => by
    rw [refEntries, refEntries]
    exact .bind (refInterp_le a k) (fun _ => .bind (refInterp_le a v) (fun _ => refEntries_le a _ es))
end

theorem refSource_le (k : Key) (e : Entry) (l : Option Loc) : AnsLe (refSource E r C k e l) (refSource E r' C k e l) := by
  unfold refSource
  rcases e.function with _ | ⟨_ | _ | _, n⟩
  · exact .rfl
  · exact .rfl
  · refine .bind .rfl (fun hs => ?_)
    cases Entries.getS hs k.root with
    | none => exact .rfl
    | some v => exact refInterp_le h C true v
  · dsimp only
    split
    · exact .rfl
    · split
      · exact .rfl
      · refine .bind .rfl (fun f => ?_)
        rcases f with _ | (f | f | f)
        · exact .rfl
        · exact .rfl
        · exact .rfl
        · exact h.call C f _ _

omit h in
theorem refFirst_le {ι : Type} (f g : ι → Ans (Option Value)) (hfg : ∀ i, AnsLe (f i) (g i)) :
    ∀ is : List ι, AnsLe (refFirst (is.map f)) (refFirst (is.map g))
  | [] => .rfl
  | i :: is => .bind (hfg i) (fun v => by
      cases v
      · exact refFirst_le f g hfg is
      · exact .rfl)

omit h in
theorem refFound_le {ι : Type} (f g : ι → Ans (Option Value)) (hfg : ∀ i, AnsLe (f i) (g i)) :
    ∀ is : List ι, AnsLe (refFound (is.map f)) (refFound (is.map g))
  | [] => .rfl
  | i :: is => .bind (hfg i) (fun _ => .bind (refFound_le f g hfg is) (fun _ => .rfl))

omit h in
theorem refMerge_le {ι : Type} (st : Strategy) (f g : ι → Ans (Option Value)) (hfg : ∀ i, AnsLe (f i) (g i)) (is : List ι) :
    AnsLe (refMerge st (is.map f)) (refMerge st (is.map g)) := by
  match st, is with
  | .first, is => exact refFirst_le f g hfg is
  | .unique, [] => exact .rfl
  | .hash, [] => exact .rfl
  | .deep o, [] => exact .rfl
  | .unique, [i] => exact .bind (hfg i) (fun _ => .rfl)
  | .hash, [i] => exact .bind (hfg i) (fun _ => .rfl)
  | .deep o, [i] => exact .bind (hfg i) (fun _ => .rfl)
  | .unique, i :: j :: is => exact .bind (refFound_le f g hfg (i :: j :: is)) (fun _ => .rfl)
  | .hash, i :: j :: is => exact .bind (refFound_le f g hfg (i :: j :: is)) (fun _ => .rfl)
  | .deep o, i :: j :: is => exact .bind (refFound_le f g hfg (i :: j :: is)) (fun _ => .rfl)

theorem refAt_le (k : Key) (e : Entry) (l : Loc) : AnsLe (refAt E r C k e l) (refAt E r' C k e l) := by
  unfold refAt
  split
  · exact refSource_le h C k e _
  · exact refSource_le h C k e _
  · exact .rfl

theorem refEntry_le (k : Key) (st : Strategy) (e : Entry) : AnsLe (refEntry E r C k st e) (refEntry E r' C k st e) := by
  unfold refEntry
  split
  · exact refSource_le h C k e _
  · exact refAt_le h C k e _
  · exact refMerge_le st _ _ (refAt_le h C k e) _

theorem refHierarchy_le (k : Key) (st : Strategy) (es : List Entry) :
    AnsLe (refHierarchy E r C k st es) (refHierarchy E r' C k st es) := refMerge_le st _ _ (refEntry_le h C k st) es

theorem refConfig_le (o : Entries) (k : Str) : AnsLe (refConfig E site r C o k) (refConfig E site r' C o k) := by
  unfold refConfig
  cases site with
  | none => exact .rfl
  | some x =>
    refine .bind .rfl (fun k => ?_)
    rcases C.within with _ | _ | _ | st
    · exact .bind .rfl (fun _ => .bind .rfl (fun _ => .bind (refHierarchy_le h _ _ _ _) (fun _ => .rfl)))
    · exact .rfl
    · exact .rfl
    · exact refHierarchy_le h C _ _ _

theorem refMux_le (o : Entries) (k : Str) : AnsLe (refMux E r C o k) (refMux E r' C o k) := by
  unfold refMux
  cases E.muxFns with
  | none => exact .rfl
  | some fs =>
    exact .bind (refMerge_le _ _ _ (fun f => h.call _ f o k) fs) (fun lo => .bind .rfl (fun _ => .bind .rfl (fun st => .bind .rfl (fun c =>
      .bind (refMerge_le _ _ _ (fun f => h.call _ f o k) fs) (fun _ => .rfl)))))

theorem refProg_le : ∀ p, AnsLe (refProg E r C p) (refProg E r' C p)
  | .ret _ => .rfl
  | .panic _ => .rfl
  | .interpolate v k => .bind (refInterp_le h C true v) (fun a => refProg_le (k a))
  | .lookup _ o k => .bind .rfl (fun kk => .bind (h.lookup C kk o) (fun a => refProg_le (k a)))
  | .explain _ k => refProg_le k
  | .cache _ _ _ => .rfl
  | .cachedValue _ _ => .rfl
  | .scopeGet key k => refProg_le (k (C.scope.get key))

theorem refCall_le (f : LkFn) (o : Entries) (k : Str) : AnsLe (refCall E site r C f o k) (refCall E site r' C f o k) := by
  cases f with
  | config => exact refConfig_le h C o k
  | custom f => exact refProg_le h C _
  | env => exact .rfl
  | scope => exact .rfl
  | notFunction => exact .rfl
  | mux => exact refMux_le h C o k
  | yaml => exact .rfl
  | module => exact .rfl

theorem refLookup_le (k : Key) (o : Entries) : AnsLe (refLookup E site r C k o) (refLookup E site r' C k o) := by
  unfold refLookup
  split
  · exact .rfl
  · refine .bind (refCall_le h C _ o _) (fun v => ?_)
    cases v with
    | none => exact .rfl
    | some v => exact .bind (refInterp_le h C.final true v) (fun _ => .rfl)

theorem refCfg_le (s : Str) : AnsLe (refCfg E r C s) (refCfg E r' C s) := refText_le h C false _

theorem refFunction_le (d : Option Entry) (e : Entry) : AnsLe (refFunction E r C d e) (refFunction E r' C d e) := by
  unfold refFunction
  split
  · exact .bind (refCfg_le h C _) (fun _ => .rfl)
  · exact .rfl
  · exact .rfl

theorem refDir_le (own : Str) (d : Option Str) (b : Str) : AnsLe (refDir E r C own d b) (refDir E r' C own d b) := by
  unfold refDir
  split
  · exact .rfl
  · exact refCfg_le h C _

theorem refOptions_le (d : Option Entry) (e : Entry) : AnsLe (refOptions E r C d e) (refOptions E r' C d e) := by
  unfold refOptions
  split
  · exact .rfl
  · refine .bind (refInterp_le h C false _) (fun v => ?_)
    split <;> exact .rfl

theorem refMapped_le (key t dir : Str) : ∀ vs, AnsLe (refMapped E r C key t dir vs) (refMapped E r' C key t dir vs)
  | [] => .rfl
  | _ :: vs => .bind (refCfg_le h _ _) (fun _ => .bind (refMapped_le key t dir vs) (fun _ => .rfl))

theorem refLoc_le (dir : Str) (l : Loc) : AnsLe (refLoc E r C dir l) (refLoc E r' C dir l) := by
  cases l with
  | path o _ _ => exact .bind (refCfg_le h C _) (fun _ => .rfl)
  | glob o => exact .bind (refCfg_le h C _) (fun _ => .rfl)
  | uri o _ => exact .bind (refCfg_le h C _) (fun _ => .rfl)
  | mapped src key t =>
    refine .bind (refVar_le h C false src) (fun v => ?_)
    split
    · exact refMapped_le h C _ _ _ _
    · exact refMapped_le h C _ _ _ _
    · exact .rfl

theorem refLocs_le (dir : Str) : ∀ ls, AnsLe (refLocs E r C dir ls) (refLocs E r' C dir ls)
  | [] => .rfl
  | l :: ls => .bind (refLoc_le h C dir l) (fun _ => .bind (refLocs_le dir ls) (fun _ => .rfl))

theorem refLocations_le (dir : Str) (ls : Option (List Loc)) : AnsLe (refLocations E r C dir ls) (refLocations E r' C dir ls) := by
  cases ls with
  | none => exact .rfl
  | some ls => exact .bind (refLocs_le h C dir ls) (fun _ => .rfl)

theorem refResolve_le (d : Option Entry) (e : Entry) : AnsLe (refResolve E r C d e) (refResolve E r' C d e) := by
  unfold refResolve
  refine .bind (refFunction_le h C d e) (fun e => .bind (refFunction_le h C d e) (fun e => .bind (refDir_le h C _ _ _) (fun _ =>
    .bind (refDir_le h C _ _ _) (fun _ => .bind (refOptions_le h C d e) (fun _ => .bind (refLocations_le h C _ _) (fun _ => .rfl))))))

theorem refResolveAll_le (d : Entry) : ∀ es, AnsLe (refResolveAll E r C d es) (refResolveAll E r' C d es)
  | [] => .rfl
  | e :: es => .bind (refResolve_le h C _ e) (fun _ => .bind (refResolveAll_le d es) (fun _ => .rfl))

theorem refLevels_le (c : Cfg) (es : List Entry) : AnsLe (refLevels E r C c es) (refLevels E r' C c es) :=
  .bind (refResolve_le h C _ _) (fun _ => refResolveAll_le h C _ _)

theorem refSite_le (c : Cfg) : AnsLe (refSite E r C c) (refSite E r' C c) :=
  .bind (refLevels_le h C _ _) (fun _ => .bind (refLevels_le h C _ _) (fun _ => .bind (refHierarchy_le h C _ _ _) (fun _ => .rfl)))
end

theorem ref_le (E : Env) (site : Option Site) : ∀ n, RefLe (ref E site n) (ref E site (n + 1))
  | 0 => ⟨fun _ _ _ => .never, fun _ _ _ => .never, fun _ _ _ _ => .never⟩
  | n + 1 => ⟨fun C k o => refLookup_le (ref_le E site n) C k o, fun C a v => refInterp_le (ref_le E site n) C a v,
      fun C f o k => refCall_le (ref_le E site n) C f o k⟩

theorem ref_mono (E : Env) (site : Option Site) {n m : Nat} (h : n ≤ m) : RefLe (ref E site n) (ref E site m) := by
  induction h with
  | refl => exact ⟨fun _ _ _ => .rfl, fun _ _ _ => .rfl, fun _ _ _ _ => .rfl⟩
  | step _ ih =>
    have := ref_le E site
    exact ⟨fun C k o r hr => (this _).lookup C k o r (ih.lookup C k o r hr), fun C a v r hr => (this _).interp C a v r (ih.interp C a v r hr),
      fun C f o k r hr => (this _).call C f o k r (ih.call C f o k r hr)⟩

theorem refAnswer_mono {E : Env} {sc : Scope} {k : Key} {o : Entries} {n n' m m' : Nat} (h : n ≤ n') (h' : m ≤ m') :
    AnsLe (refAnswer E sc k o n m) (refAnswer E sc k o n' m') := by
  unfold refAnswer
  split
  · exact .rfl
  · exact .bind .rfl (fun c => .bind (refSite_le (ref_mono E none h) _ c) (fun x => refLookup_le (ref_mono E (some x) h') _ k o))

end Hiera
