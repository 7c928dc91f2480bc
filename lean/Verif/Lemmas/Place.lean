/- The places that cleaned and joined paths lead to. -/
import Verif.Lemmas.Path
import Verif.Spec.Place

set_option autoImplicit false

namespace Hiera

open Spec

theorem splitSlash_splitOn (acc s : Str) : splitSlash acc s = (s.splitOn '/').modifyHead (acc ++ ·) := by
  induction s generalizing acc with
  | nil => simp [splitSlash]
  | cons c cs ih =>
    rw [splitSlash, List.splitOn_cons_eq_if_modifyHead]
    by_cases hc : c = '/'
    · rw [if_pos hc, if_pos (by simp [hc]), ih]
      cases h : List.splitOn '/' cs with
      | nil => exact absurd h (List.splitOn_ne_nil _ _)
      | cons x xs => simp
    · rw [if_neg hc, if_neg (by simp [hc]), ih]
      cases h : List.splitOn '/' cs with
      | nil => exact absurd h (List.splitOn_ne_nil _ _)
      | cons x xs => simp

theorem splitOn_eq (s : Str) : s.splitOn '/' = splitSlash [] s := by
  rw [splitSlash_splitOn]
  cases h : List.splitOn '/' s with
  | nil => rfl
  | cons x xs => simp

theorem intercalate_eq : ∀ es : List Str, List.intercalate ['/'] es = joinSlash es
  | [] => rfl
  | [x] => by simp [joinSlash]
  | x :: y :: es => by
    rw [List.intercalate_cons_cons, intercalate_eq (y :: es), joinSlash.eq_3 x (y :: es) (by simp)]
    simp

theorem go_up (c : Place) {e : Str} (h : e ≠ [] ∧ e ≠ ['.'] ∧ e ≠ ['.', '.']) : go (go c e) ['.', '.'] = c := by
  obtain ⟨h1, h2, h3⟩ := h
  unfold go
  simp [h1, h2, h3]

/-- Cleaning the elements of a path keeps the place that they lead to. -/
theorem walk_cleanElems (b : Bool) (c : Place) (hb : b = true → c = []) (es out : List Str)
    (ho : ∀ e ∈ out, e ≠ [] ∧ e ≠ ['.']) :
    (cleanElems b out es).foldl go c = es.foldl go (out.reverse.foldl go c) := by
  induction es generalizing out with
  | nil => rfl
  | cons e es ih =>
    rw [cleanElems_cons, List.foldl_cons]
    split
    · rename_i he
      rw [ih out ho]
      congr 1
      unfold go
      rw [if_pos he]
    · rename_i he
      split
      · rename_i hd
        subst hd
        cases out with
        | nil =>
          dsimp only
          split
          · rename_i hb'
            rw [ih [] ho, hb hb']
            rfl
          · rw [ih [['.', '.']] (fun x hx => by rw [List.mem_singleton.mp hx]; exact ⟨by decide, by decide⟩)]
            rfl
        | cons o os =>
          dsimp only
          split
          · rw [ih (['.', '.'] :: o :: os) (fun x hx => by
              rcases List.mem_cons.mp hx with rfl | hx
              · exact ⟨by decide, by decide⟩
              · exact ho x hx)]
            rw [List.reverse_cons (a := ['.', '.']), List.foldl_append]
            rfl
          · rename_i hoo
            rw [ih os (fun x hx => ho x (List.mem_cons_of_mem _ hx)), List.reverse_cons, List.foldl_append]
            congr 1
            exact (go_up _ ⟨(ho o List.mem_cons_self).1, (ho o List.mem_cons_self).2, hoo⟩).symm
      · rw [ih (e :: out) (fun x hx => by
          rcases List.mem_cons.mp hx with rfl | hx
          · exact ⟨fun h => he (.inl h), fun h => he (.inr h)⟩
          · exact ho x hx), List.reverse_cons, List.foldl_append]
        rfl

theorem walk_rooted (es : List Str) (h : RootElems es) (c : Place) : es.foldl go c = c ++ es := by
  induction es generalizing c with
  | nil => simp
  | cons e es ih =>
    rw [List.foldl_cons, ih (fun x hx => h x (List.mem_cons_of_mem _ hx))]
    obtain ⟨⟨h1, _, h2⟩, h3⟩ := h e List.mem_cons_self
    unfold go
    simp [h1, h2, h3]

theorem head_isAbs (p : Str) : p.head? = some '/' ↔ isAbs p = true := by
  rw [isAbs_iff]
  cases p with
  | nil => simp
  | cons c cs => simp

theorem place_abs {p : Str} (h : isAbs p = true) (c : Place) : place c p = walk [] p := by
  unfold place
  rw [if_pos ((head_isAbs p).mpr h)]

theorem place_rel {p : Str} (h : isAbs p = false) (c : Place) : place c p = walk c p := by
  unfold place
  rw [if_neg (fun x => by rw [(head_isAbs p).mp x] at h; cases h)]

theorem walk_rooted_path (es : List Str) (h : RootElems es) (c : Place) : walk c ('/' :: joinSlash es) = c ++ es := by
  unfold walk
  rw [splitOn_eq, splitSlash, if_pos rfl, List.foldl_cons]
  have h0 : go c [] = c := rfl
  rw [h0]
  cases es with
  | nil => simp [joinSlash, splitSlash, go]
  | cons e es =>
    rw [splitSlash_join _ (by simp) (fun x hx => (h x hx).1.2.1), walk_rooted _ h]

theorem clean_elems {p : Str} (h : isAbs p = true) :
    ∃ es, RootElems es ∧ clean p = '/' :: joinSlash es ∧ es = walk [] p := by
  have hr := cleanElems_rooted (splitSlash [] p) [] (fun _ h => nomatch h) (splitSlash_noslash [] p (by simp))
  refine ⟨cleanElems true [] (splitSlash [] p), hr, ?_, ?_⟩
  · unfold clean
    simp only [h, if_true]
  · have := walk_cleanElems true [] (fun _ => rfl) (splitSlash [] p) [] (fun _ h => nomatch h)
    rw [walk_rooted _ hr] at this
    unfold walk
    rw [splitOn_eq]
    simpa using this

/-- A cleaned absolute path is the name of its place. -/
theorem clean_named {p : Str} (h : isAbs p = true) (c : Place) : clean p = named (place c p) := by
  obtain ⟨es, _, h1, h2⟩ := clean_elems h
  rw [h1, place_abs h, named, intercalate_eq, h2]

/-- The path that cleaning gives for elements of a relative path is relative. -/
theorem isAbs_join_elems (es : List Str) (h : ∀ e ∈ es, e ≠ [] ∧ '/' ∉ e) : isAbs (joinSlash es) = false := by
  cases es with
  | nil => rfl
  | cons e es =>
    obtain ⟨h1, h2⟩ := h e List.mem_cons_self
    cases e with
    | nil => exact absurd rfl h1
    | cons c cs =>
      have hc : c ≠ '/' := fun x => h2 (by simp [x])
      have : ∃ r, joinSlash ((c :: cs) :: es) = c :: r := by
        cases es with
        | nil => exact ⟨cs, rfl⟩
        | cons f fs => exact ⟨_, by rw [joinSlash]; · rfl
                                    · simp⟩
      obtain ⟨r, hr⟩ := this
      rw [hr]
      unfold isAbs
      split
      · rename_i heq; cases heq; exact absurd rfl hc
      · rfl

theorem cleanElems_mem (b : Bool) (es out : List Str) {e : Str} (h : e ∈ cleanElems b out es) :
    e ∈ out ∨ (e ∈ es ∧ e ≠ [] ∧ e ≠ ['.']) := by
  induction es generalizing out with
  | nil => exact .inl (List.mem_reverse.mp h)
  | cons x xs ih =>
    rw [cleanElems_cons] at h
    have weaken : ∀ {o : List Str}, (∀ y ∈ o, y ∈ out) → (e ∈ o ∨ (e ∈ xs ∧ e ≠ [] ∧ e ≠ ['.'])) →
        (e ∈ out ∨ (e ∈ x :: xs ∧ e ≠ [] ∧ e ≠ ['.'])) := fun ho hh => hh.elim (fun y => .inl (ho _ y))
          (fun y => .inr ⟨List.mem_cons_of_mem _ y.1, y.2⟩)
    have push : x ≠ [] ∧ x ≠ ['.'] → (e ∈ x :: out ∨ (e ∈ xs ∧ e ≠ [] ∧ e ≠ ['.'])) →
        (e ∈ out ∨ (e ∈ x :: xs ∧ e ≠ [] ∧ e ≠ ['.'])) := fun hx hh => hh.elim
          (fun y => (List.mem_cons.mp y).elim (fun z => by subst z; exact .inr ⟨List.mem_cons_self, hx⟩) .inl)
          (fun y => .inr ⟨List.mem_cons_of_mem _ y.1, y.2⟩)
    split at h
    · exact weaken (fun _ y => y) (ih _ h)
    · rename_i hx
      have hx' : x ≠ [] ∧ x ≠ ['.'] := ⟨fun y => hx (.inl y), fun y => hx (.inr y)⟩
      split at h
      · split at h
        · split at h
          · exact weaken (fun _ y => y) (ih _ h)
          · exact push hx' (ih _ h)
        · split at h
          · exact push hx' (ih _ h)
          · exact weaken (fun _ y => List.mem_cons_of_mem _ y) (ih _ h)
      · exact push hx' (ih _ h)

theorem clean_isAbs (p : Str) : isAbs (clean p) = isAbs p := by
  cases h : isAbs p with
  | true =>
    unfold clean
    rw [h]; rfl
  | false =>
    unfold clean
    rw [h]
    simp only [Bool.false_eq_true, if_false]
    split
    · rfl
    · refine isAbs_join_elems _ (fun e he => ?_)
      rcases cleanElems_mem _ _ _ he with h1 | h1
      · exact nomatch h1
      · exact ⟨h1.2.1, splitSlash_noslash [] p (by simp) e h1.1⟩

theorem joinSlash_ne {es : List Str} (hne : es ≠ []) (h : ∀ e ∈ es, e ≠ []) : joinSlash es ≠ [] := by
  cases es with
  | nil => exact absurd rfl hne
  | cons e es =>
    have he := h e List.mem_cons_self
    cases es with
    | nil => exact he
    | cons f fs => rw [joinSlash.eq_3 e (f :: fs) (by simp)]; simp

/-- A cleaned path is never empty. -/
theorem clean_ne (p : Str) : clean p ≠ [] := by
  unfold clean
  dsimp only
  split
  · simp
  · split
    · simp
    · rename_i h
      refine joinSlash_ne h (fun e he => ?_)
      rcases cleanElems_mem _ _ _ he with h1 | h1
      · exact nomatch h1
      · exact h1.2.1

/-- Cleaning keeps the place of a path. -/
theorem place_clean (p : Str) (c : Place) : place c (clean p) = place c p := by
  cases h : isAbs p with
  | true =>
    obtain ⟨es, hr, h1, h2⟩ := clean_elems h
    rw [place_abs (by rw [clean_isAbs]; exact h), place_abs h, h1, walk_rooted_path es hr, ← h2]
    rfl
  | false =>
    rw [place_rel (by rw [clean_isAbs]; exact h), place_rel h]
    have hw := walk_cleanElems false c (fun h => nomatch h) (splitSlash [] p) [] (fun _ h => nomatch h)
    unfold walk
    rw [splitOn_eq, splitOn_eq p]
    unfold clean
    rw [h]
    simp only [Bool.false_eq_true, if_false]
    split
    · rename_i he
      rw [he] at hw
      rw [show splitSlash [] ['.'] = [['.']] from rfl]
      exact hw
    · rename_i he
      rw [splitSlash_join _ he]
      · exact hw
      · intro e hm
        rcases cleanElems_mem _ _ _ hm with h1 | h1
        · exact nomatch h1
        · exact splitSlash_noslash [] p (by simp) e h1.1

theorem walk_two (c : Place) (a b : Str) : walk c (a ++ '/' :: b) = walk (walk c a) b := by
  unfold walk
  rw [splitOn_eq, splitOn_eq, splitOn_eq, splitSlash_two, List.foldl_append]

/-- A joined path leads where its second part leads from the place of its first part. -/
theorem place_join {a : Str} (ha : a ≠ []) (b : Str) (c : Place) : place c (join a b) = walk (place c a) b := by
  unfold join
  rw [if_pos ha, place_clean]
  cases h : isAbs a with
  | true =>
    have h' : isAbs (a ++ '/' :: b) = true := by
      obtain ⟨q, rfl⟩ := isAbs_iff.mp h
      rfl
    rw [place_abs h', place_abs h, walk_two]
  | false =>
    have h' : isAbs (a ++ '/' :: b) = false := by
      cases a with
      | nil => exact absurd rfl ha
      | cons x xs =>
        rw [← Bool.not_eq_true, isAbs_iff]
        rintro ⟨q, hq⟩
        rw [← Bool.not_eq_true, isAbs_iff] at h
        exact h ⟨xs, by simp at hq; rw [hq.1]⟩
    rw [place_rel h', place_rel h, walk_two]

theorem join_nil (b : Str) (c : Place) : place c (join [] b) = place c b := by
  unfold join
  rw [if_neg (by simp)]
  split
  · exact place_clean b c
  · rename_i h
    simp only [ne_eq, not_not] at h
    rw [h]

theorem join_isAbs {a : Str} (h : isAbs a = true) (b : Str) : isAbs (join a b) = true := by
  obtain ⟨q, rfl⟩ := isAbs_iff.mp h
  unfold join
  rw [if_pos (by simp), clean_isAbs]
  rfl

/-- The absolute form of a path is the name of its place. -/
theorem absPath_named {cwd : Str} (h : isAbs cwd = true) (p : Str) (c : Place) :
    absPath cwd p = named (place (place c cwd) p) := by
  unfold absPath
  split
  · exact clean_named ‹_› _
  · rename_i hp
    rw [Bool.not_eq_true] at hp
    have h1 : isAbs (join cwd p) = true := join_isAbs h p
    have h2 : clean (join cwd p) = join cwd p := by
      have hne : cwd ≠ [] := fun x => by rw [x] at h; cases h
      obtain ⟨q, rfl⟩ := isAbs_iff.mp h
      unfold join
      rw [if_pos hne]
      obtain ⟨es, hr, h3, h4⟩ := clean_elems (p := ('/' :: q) ++ '/' :: p) rfl
      rw [h3]
      obtain ⟨es', hr', h3', h4'⟩ := clean_elems (p := '/' :: joinSlash es) rfl
      rw [h3', h4', walk_rooted_path es hr]
      rfl
    rw [← h2, clean_named h1 c, place_join (fun x => by rw [x] at h; cases h), place_rel hp]

theorem go_rooted {c : Place} (hc : RootElems c) {e : Str} (he : '/' ∉ e) : RootElems (go c e) := by
  unfold go
  split
  · exact hc
  · rename_i h1
    split
    · exact fun x hx => hc x (List.dropLast_subset _ hx)
    · rename_i h2
      intro x hx
      rcases List.mem_append.mp hx with hx | hx
      · exact hc x hx
      · rw [List.mem_singleton.mp hx]
        exact ⟨⟨fun h => h1 (.inl h), he, fun h => h1 (.inr h)⟩, h2⟩

theorem walk_rootElems (p : Str) {c : Place} (hc : RootElems c) : RootElems (walk c p) := by
  unfold walk
  rw [splitOn_eq]
  have h := splitSlash_noslash [] p (by simp)
  revert h
  generalize splitSlash [] p = es
  intro h
  induction es generalizing c with
  | nil => exact hc
  | cons e es ih => exact ih (go_rooted hc (h e List.mem_cons_self)) (fun x hx => h x (List.mem_cons_of_mem _ hx))

theorem place_rootElems (p : Str) {c : Place} (hc : RootElems c) : RootElems (place c p) := by
  unfold place
  split
  · exact walk_rootElems p (fun _ h => nomatch h)
  · exact walk_rootElems p hc

end Hiera
