/- Paths: what cleaning and joining give. -/
import Verif.Model.Path
import Mathlib.Tactic.Tauto

set_option autoImplicit false

namespace Hiera

/-- An element of a path. -/
def Elem (e : Str) : Prop := e ≠ [] ∧ '/' ∉ e ∧ e ≠ ['.']

/-- The elements of a path from the root, in shortest form. -/
def RootElems (es : List Str) : Prop := ∀ e ∈ es, Elem e ∧ e ≠ ['.', '.']

theorem splitSlash_noslash (acc : Str) : ∀ s : Str, ('/' ∉ acc) → ∀ e ∈ splitSlash acc s, '/' ∉ e := by
  intro s
  induction s generalizing acc with
  | nil => intro h e he; rw [List.mem_singleton.mp he]; exact h
  | cons c cs ih =>
    intro h e he
    unfold splitSlash at he
    split at he
    · rcases List.mem_cons.mp he with rfl | he
      · exact h
      · exact ih [] (by simp) e he
    · rename_i hc
      refine ih (acc ++ [c]) ?_ e he
      simp only [List.mem_append, List.mem_singleton, not_or]
      exact ⟨h, fun x => hc x.symm⟩

theorem splitSlash_elem (acc e : Str) (h : '/' ∉ e) : splitSlash acc e = [acc ++ e] := by
  induction e generalizing acc with
  | nil => simp [splitSlash]
  | cons c cs ih =>
    have hc : c ≠ '/' := fun x => h (by simp [x])
    rw [splitSlash, if_neg hc, ih _ (fun x => h (List.mem_cons_of_mem _ x))]
    simp

theorem splitSlash_append (acc e rest : Str) (h : '/' ∉ e) : splitSlash acc (e ++ '/' :: rest) = (acc ++ e) :: splitSlash [] rest := by
  induction e generalizing acc with
  | nil => simp [splitSlash]
  | cons c cs ih =>
    have hc : c ≠ '/' := fun x => h (by simp [x])
    rw [List.cons_append, splitSlash, if_neg hc, ih _ (fun x => h (List.mem_cons_of_mem _ x))]
    simp

theorem splitSlash_join (es : List Str) (hne : es ≠ []) (h : ∀ e ∈ es, '/' ∉ e) : splitSlash [] (joinSlash es) = es := by
  induction es with
  | nil => exact absurd rfl hne
  | cons e es ih =>
    cases es with
    | nil => exact splitSlash_elem [] e (h e List.mem_cons_self)
    | cons f fs =>
      rw [joinSlash, splitSlash_append [] e _ (h e List.mem_cons_self), ih (by simp) (fun x hx => h x (List.mem_cons_of_mem _ hx))]
      · rfl
      · simp

/-- The elements of two paths, one after the other. -/
theorem splitSlash_two (acc a b : Str) : splitSlash acc (a ++ '/' :: b) = splitSlash acc a ++ splitSlash [] b := by
  induction a generalizing acc with
  | nil => simp [splitSlash]
  | cons c cs ih =>
    rw [List.cons_append, splitSlash, splitSlash]
    split
    · rw [ih]; rfl
    · rw [ih]

theorem cleanElems_rooted (es out : List Str) (ho : RootElems out) (hes : ∀ e ∈ es, '/' ∉ e) : RootElems (cleanElems true out es) := by
  induction es generalizing out with
  | nil =>
    intro e he
    exact ho e (List.mem_reverse.mp he)
  | cons e es ih =>
    have hes' := fun x hx => hes x (List.mem_cons_of_mem _ hx)
    unfold cleanElems
    split
    · exact ih out ho hes'
    · rename_i h1
      split
      · split
        · exact ih [] (fun _ h => nomatch h) hes'
        · rename_i o os
          split
          · rename_i ho'
            exact absurd ho' (ho o List.mem_cons_self).2
          · exact ih os (fun x hx => ho x (List.mem_cons_of_mem _ hx)) hes'
      · rename_i h2
        refine ih (e :: out) (fun x hx => ?_) hes'
        rcases List.mem_cons.mp hx with rfl | hx
        · exact ⟨⟨fun h => h1 (.inl h), hes x List.mem_cons_self, fun h => h1 (.inr h)⟩, h2⟩
        · exact ho x hx

/-- The elements that count. -/
def solid (es : List Str) : List Str := es.filter (fun e => e ≠ [] ∧ e ≠ ['.'])

theorem cleanElems_solid (b : Bool) (es out : List Str) (h : ['.', '.'] ∉ es) :
    cleanElems b out es = out.reverse ++ solid es := by
  induction es generalizing out with
  | nil => simp [cleanElems, solid]
  | cons e es ih =>
    have h' : ['.', '.'] ∉ es := fun x => h (List.mem_cons_of_mem _ x)
    unfold cleanElems
    split
    · rename_i h1
      rw [ih out h', solid, solid, List.filter_cons, if_neg (by simp only [ne_eq, decide_eq_true_eq]; tauto)]
    · rename_i h1
      rw [if_neg (fun x => h (by simp [x])), ih _ h', solid, solid, List.filter_cons,
        if_pos (by simp only [ne_eq, decide_eq_true_eq]; tauto)]
      simp

theorem cleanElems_cons (b : Bool) (e : Str) (es out : List Str) : cleanElems b out (e :: es) =
    if e = [] ∨ e = ['.'] then cleanElems b out es
    else if e = ['.', '.'] then
      match out with
      | [] => if b then cleanElems b [] es else cleanElems b [e] es
      | o :: os => if o = ['.', '.'] then cleanElems b (e :: o :: os) es else cleanElems b os es
    else cleanElems b (e :: out) es := by
  rw [cleanElems.eq_def]
  cases out <;> rfl

theorem cleanElems_append (b : Bool) (es fs out : List Str) :
    cleanElems b out (es ++ fs) = cleanElems b (cleanElems b out es).reverse fs := by
  induction es generalizing out with
  | nil => simp [cleanElems]
  | cons e es ih =>
    rw [List.cons_append, cleanElems_cons b e (es ++ fs), cleanElems_cons b e es]
    split
    · exact ih out
    · split
      · split
        · split
          · exact ih _
          · exact ih _
        · split
          · exact ih _
          · exact ih _
      · exact ih _

/-- A path from the root in shortest form. -/
def CleanRooted (p : Str) : Prop := ∃ es, RootElems es ∧ p = '/' :: joinSlash es

theorem isAbs_iff {p : Str} : isAbs p = true ↔ ∃ q, p = '/' :: q := by
  cases p with
  | nil => simp [isAbs]
  | cons c cs =>
    unfold isAbs
    split
    · rename_i heq
      cases heq
      simp
    · rename_i h
      simp only [Bool.false_eq_true, List.cons.injEq, exists_eq_right', false_iff]
      intro hc
      exact h cs (by rw [hc])

theorem clean_rooted {p : Str} (h : isAbs p = true) : CleanRooted (clean p) := by
  refine ⟨cleanElems true [] (splitSlash [] p), cleanElems_rooted _ _ (fun _ h => nomatch h) (splitSlash_noslash [] p (by simp)), ?_⟩
  unfold clean
  simp only [h, if_true]

theorem join_rooted {a b : Str} (h : isAbs a = true) : CleanRooted (join a b) := by
  obtain ⟨q, rfl⟩ := isAbs_iff.mp h
  unfold join
  rw [if_pos (by simp)]
  exact clean_rooted rfl

theorem absPath_rooted {cwd p : Str} (h : isAbs cwd = true) : CleanRooted (absPath cwd p) := by
  unfold absPath
  split
  · exact clean_rooted ‹_›
  · exact join_rooted h

end Hiera
