/- Relational reasoning about the evaluator where changing the merge strategy matters: one relation for what runs on a
copy of the invocation made for data (`D`), and one for everything else (`R`). -/
import Verif.Lemmas.Rel
import Verif.Spec.History

set_option autoImplicit false

namespace Hiera

open Spec

theorem Spec.TameEnv.keyFn {E : Env} (h : TameEnv E) (e : Entry) (n : Str) (f : LkFn) (hf : loadFunction E e n = .ok (some (.key f))) :
    Tame f := by
  unfold loadFunction at hf
  cases h1 : E.functions n with
  | some g => rw [h1] at hf; cases hf; exact h.fns n f h1
  | none =>
    rw [h1] at hf
    dsimp only at hf
    split at hf
    · exact h.plugins _ n f hf
    · cases hf

/-- `D` and `R` are preserved by the operations that the evaluator is made of, where the functions are tame. -/
structure Shape (E : Env) (R D : Rel) : Prop where
  r : Asking E R Tame Fits
  d : Asking E D Tame Fits
  setLuOpts : ∀ lo, D Unit (setLuOpts lo) (setLuOpts lo)
  setStrategy : ∀ st, D Unit (setStrategy st) (setStrategy st)
  redacted : ∀ {α} {m m' : M α}, D α m m' → D α (doRedacted m) (doRedacted m')
  optionsR : ∀ {α} {m m' : M α}, R α m m' → R α (forLookupOptions m) (forLookupOptions m')
  dataD : ∀ {α} {m m' : M α}, D α m m' → R α (forData m) (forData m')
  dataR : ∀ {α} {m m' : M α}, R α m m' → R α (forData m) (forData m')
  config : ∀ {rec rec' : Rec}, RecRelOn R R Tame rec rec' →
    R _ (config E rec E.configPath []) (config E rec' E.configPath [])
  tame : TameEnv E

section
variable {E : Env} {R D : Rel} (h : Shape E R D)
include h

theorem Shape.setMergeStrategy (cli : Option Value) (lo : Option Entries) :
    D _ (setMergeStrategy cli lo) (setMergeStrategy cli lo) := by
  unfold Hiera.setMergeStrategy
  exact h.d.bind (h.d.mergeOption cli lo) (fun o => h.d.bind (h.setLuOpts _) (fun _ => h.d.bind (h.d.lift _) (fun _ => h.setStrategy _)))

theorem Shape.lookupAndConvert {f f' : M (Option Value)} (hf : D _ f f') :
    D _ (lookupAndConvert E f) (lookupAndConvert E f') := by
  unfold Hiera.lookupAndConvert
  refine h.d.viewBind (fun v mm => h.d.bind (h.d.lift _) (fun c => h.d.bind ?_ (fun r => h.d.lift _)))
  unfold maybeRedacted
  rcases c with _ | ⟨t, as⟩
  · exact hf
  · by_cases hs : E.isSensitive t = true
    · simp only [hs, ↓reduceIte]; exact h.redacted hf
    · simp only [hs]; exact hf

variable {rec rec' : Rec} (hr : RecRelOn R R Tame rec rec') (hd : RecRelOn D D Tame rec rec')
include hr

theorem Shape.interp (v : Value) (a : Bool) : R _ (interp E rec a v) (interp E rec' a v) := by
  cases a with
  | true => exact h.r.toCore.interp hr.interp (fun _ => hr.lookup) E v
  | false => exact h.r.toCore.interp hr.interpC (fun h => nomatch h) E v

theorem Shape.runProg (p : Prog) (hp : TameProg p) : R _ (runProg E rec p) (runProg E rec' p) := by
  induction hp with
  | ret v => exact h.r.pure _
  | panic e => exact h.r.panic _
  | interpolate v k _ ih => exact h.r.bind (h.r.interpolate hr.interp hr.lookup _) (fun r => ih _)
  | lookup key o k _ ih => exact h.r.bind (h.r.lift _) (fun kk => h.r.bind (hr.lookup _ _) (fun r => ih _))
  | explain t k _ ih => exact h.r.bind (h.r.report _ (by grows)) (fun _ => ih)
  | scopeGet key k _ ih => exact h.r.viewBind (fun v mm => ih _)

include hd

theorem Shape.configAt (opts : Entries) (key : Str) :
    R _ (configAt E rec E.configPath opts key []) (configAt E rec' E.configPath opts key []) := by
  unfold Hiera.configAt
  refine h.r.bind (h.config hr) (fun cfg => h.r.bind (h.r.lift _) (fun k => h.r.viewBind (fun v mm => ?_)))
  simp only [View.withMem]
  cases v.ic.mode
  · exact h.dataD (h.d.withNode _ (h.d.bind (h.setMergeStrategy _ _) (fun _ => h.lookupAndConvert
      (h.d.bind h.d.currentStrategy (fun st => h.d.mergeHierarchy hd _ _ _)))))
  · exact h.r.pure _
  · exact h.r.bind h.r.currentStrategy (fun st => h.r.mergeHierarchy hr _ _ _)

theorem Shape.muxLookup (opts : Entries) (key : Str) :
    R _ (muxLookup E rec opts key) (muxLookup E rec' opts key) := by
  unfold Hiera.muxLookup
  cases hm : E.muxFns with
  | none => exact h.r.pure _
  | some fs =>
    exact h.r.bind (h.optionsR (h.r.mergeM _ _ _ _ (fun f hf => hr.lkOn _ _ _ (h.tame.mux fs f hm hf)))) (fun lo => h.dataD
      (h.d.bind (h.d.lift _) (fun k => h.d.withNode _ (h.d.bind (h.setMergeStrategy _ _) (fun _ => h.lookupAndConvert
        (h.d.bind h.d.currentStrategy (fun st => h.d.mergeM _ _ _ _ (fun f hf => hd.lkOn _ _ _ (h.tame.mux fs f hm hf)))))))))

theorem Shape.callLk (f : LkFn) (opts : Entries) (key : Str) (hf : Tame f) :
    R _ (callLk E rec f opts key) (callLk E rec' f opts key) := by
  cases f with
  | config => exact h.configAt hr hd _ _
  | mux => exact h.muxLookup hr hd _ _
  | env => exact h.r.pure _
  | scope => exact h.r.viewBind (fun v mm => h.r.pure _)
  | yaml => exact hf.elim
  | module => exact hf.elim
  | custom f => exact h.runProg hr _ (hf _ _)
  | notFunction => exact h.r.pure _

theorem Shape.lookup (key : Key) (opts : Entries) :
    R _ (lookup E rec key opts) (lookup E rec' key opts) := by
  unfold Hiera.lookup
  by_cases hk : key.root = "lookup_options".toList
  · rw [if_pos hk, if_pos hk]
    exact h.r.withNode _ (h.r.bind (h.r.report _ (by grows)) (fun _ => h.r.pure _))
  · rw [if_neg hk, if_neg hk]
    refine h.r.bind (h.callLk hr hd _ _ _ h.tame.top) (fun r => ?_)
    cases r with
    | none => exact h.r.pure _
    | some x => exact h.dataR (h.r.bind (h.r.interpolate hr.interp hr.lookup _) (fun r => h.r.dig _ _))

theorem Shape.step : RecRelOn R R Tame (step E rec) (step E rec') :=
  ⟨h.lookup hr hd, fun v => h.interp hr v true, fun v => h.interp hr v false, fun f o k hf => h.callLk hr hd f o k hf⟩
end

/-- Every evaluation is related to itself. -/
theorem Shape.eval {E : Env} {R D : Rel} (h : Shape E R D) (h' : Shape E D D) (hh : ∀ α, R α hang hang) (hh' : ∀ α, D α hang hang)
    (n : Nat) : RecRelOn R R Tame (eval E n) (eval E n) ∧ RecRelOn D D Tame (eval E n) (eval E n) := by
  induction n with
  | zero => exact ⟨⟨fun _ _ => hh _, fun _ => hh _, fun _ => hh _, fun _ _ _ _ => hh _⟩,
      ⟨fun _ _ => hh' _, fun _ => hh' _, fun _ => hh' _, fun _ _ _ _ => hh' _⟩⟩
  | succ n ih => exact ⟨h.step ih.1 ih.2, h'.step ih.2 ih.2⟩

end Hiera
