/- Loading the functions of hierarchy entries. -/
import Verif.Lemmas.Loader
import Verif.Lemmas.World

set_option autoImplicit false

namespace Hiera

open Value Spec World

/-- **C70**: the function of an entry is the session's function of that name, and if there is none, it is the one of the
plugin at exactly the place that the entry names. -/
theorem C70_loader_partial (E : Env) (e : Entry) (n : Str) (hcwd : isAbs E.cwd = true) (hl : E.loader ≠ [])
    (hm : MarkLast (prefixName E.loader)) :
    loadFunction E e n = match E.functions n, pluginPlace E.cwd e n with
      | some f, _ => .ok (some f)
      | none, [] => .ok none
      | none, p => E.pluginFn (named p) n := by
  unfold loadFunction
  cases E.functions n with
  | some f => rfl
  | none =>
    dsimp only
    rw [pluginPath_named E e n hcwd]
    have hr : RootElems (pluginPlace E.cwd e n) :=
      place_rootElems _ (place_rootElems _ (place_rootElems _ (fun _ h => nomatch h)))
    unfold named
    rw [intercalate_eq, pluginOf_named E.loader hl hm _ hr]
    cases pluginPlace E.cwd e n with
    | nil => rfl
    | cons x xs =>
      simp only [reduceCtorEq, if_false, ← intercalate_eq]

/-- A session without a parent loader has no name of its own. -/
theorem markLast_nil : MarkLast (prefixName [[]]) := by
  intro a r h
  have h' := congrArg List.length h
  simp [prefixName, absName] at h'
  exact List.eq_nil_of_length_eq_zero (by omega)

/-- **C70** for a session without a parent loader. -/
theorem C70_default (E : Env) (e : Entry) (n : Str) (hcwd : isAbs E.cwd = true) (hl : E.loader = [[]]) :
    loadFunction E e n = match E.functions n, pluginPlace E.cwd e n with
      | some f, _ => .ok (some f)
      | none, [] => .ok none
      | none, p => E.pluginFn (named p) n :=
  C70_loader_partial E e n hcwd (by rw [hl]; simp) (by rw [hl]; exact markLast_nil)

/-- A session with one plugin, which has one function. -/
def pluginWorld (l : List Str) : Env where
  top := .config
  cwd := "/w".toList
  loader := l
  functions := fun n => if n = "own".toList then some (.hash (fun _ => .ok none)) else none
  pluginFn := fun p n => if p = "/w/x/fn".toList then .ok (if n = "fn".toList then some (.hash (fun _ => .ok none)) else none)
    else .panic (.other 1)

example : ((loadFunction (pluginWorld [[]]) { root := "/w".toList, pluginDir := "p//q/..".toList, pluginFile := ".././x/fn".toList } "fn".toList) matches .ok (some (.hash _))) ∧
    ((loadFunction (pluginWorld [[]]) { root := "/w".toList, pluginDir := "/w/x".toList } "fn".toList) matches .ok (some (.hash _))) ∧
    ((loadFunction (pluginWorld [[]]) { root := "/w".toList, pluginDir := "/w/y".toList } "fn".toList) matches .panic _) ∧
    ((loadFunction (pluginWorld [[]]) { root := "/w".toList, pluginDir := "/w/y".toList, pluginFile := "/w/x/fn".toList } "g".toList) matches .ok none) ∧
    ((loadFunction (pluginWorld [[]]) { root := "/w".toList, pluginDir := "/w/y".toList } "own".toList) matches .ok (some (.hash _))) ∧
    pluginPlace "/w".toList { root := "/w".toList, pluginDir := "p//q/..".toList, pluginFile := ".././x/fn".toList } "fn".toList = ["w".toList, "x".toList, "fn".toList] := by
  decide +kernel

/-- The condition on the loader is needed: if a parent loader is called `plugin`, then the file that is started is
another one. -/
theorem C70_false : ((loadFunction (pluginWorld ["plugin".toList]) { root := "/w".toList, pluginDir := "/w/x".toList } "fn".toList) matches .panic _) ∧
    pluginOf (pluginNs ["plugin".toList] "/w/x/fn".toList) = some "/plugin/w/x/fn".toList := by
  decide +kernel

end Hiera
