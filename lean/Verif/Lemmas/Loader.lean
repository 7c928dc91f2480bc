/- The namespaces of plugins. -/
import Verif.Lemmas.Place
import Verif.Spec.Loader

set_option autoImplicit false

namespace Hiera

open Value Spec

theorem startsWith_iff (p s : Str) : startsWith p s = true ↔ ∃ r, s = p ++ r := by
  induction p generalizing s with
  | nil => simp [startsWith]
  | cons c cs ih =>
    cases s with
    | nil => simp [startsWith]
    | cons d ds =>
      simp only [startsWith, Bool.and_eq_true, beq_iff_eq, ih, List.cons_append, List.cons.injEq]
      constructor
      · rintro ⟨rfl, r, rfl⟩; exact ⟨r, rfl, rfl⟩
      · rintro ⟨r, rfl, rfl⟩; exact ⟨rfl, r, rfl⟩

/-- The first occurrence. -/
theorem indexOf_first (sub b : Str) (rest : Str) (hs : sub ≠ [])
    (h : ∀ a r, b ++ sub = a ++ sub ++ r → r = []) : indexOf sub (b ++ sub ++ rest) = some b.length := by
  induction b with
  | nil =>
    cases sub with
    | nil => exact absurd rfl hs
    | cons c cs =>
      have : startsWith (c :: cs) (c :: (cs ++ rest)) = true := (startsWith_iff _ _).mpr ⟨rest, rfl⟩
      simp only [List.nil_append, List.cons_append, indexOf, this, if_true, List.length_nil]
  | cons x xs ih =>
    have hx : ¬ startsWith sub ((x :: xs) ++ sub ++ rest) = true := by
      intro hst
      obtain ⟨r, hr⟩ := (startsWith_iff _ _).mp hst
      have hlen : r.length = xs.length + 1 + rest.length := by
        have := congrArg List.length hr
        simp only [List.length_append, List.length_cons] at this
        omega
      -- the occurrence ends before the end
      have h1 : sub <+: (x :: xs) ++ sub := by
        have h2 : sub <+: (x :: xs) ++ sub ++ rest := ⟨r, hr.symm⟩
        exact List.prefix_of_prefix_length_le h2 (List.prefix_append _ _) (by simp; omega)
      obtain ⟨r', hr'⟩ := h1
      have := h [] r' (by simpa using hr'.symm)
      subst this
      have := congrArg List.length hr'
      simp at this
      omega
    have ih' := ih (fun a r har => h (x :: a) r (by simp [List.cons_append] at har ⊢; exact har))
    rw [List.cons_append, List.cons_append] at hx ⊢
    rw [indexOf, if_neg hx, ih']
    rfl

theorem absName_push (n : Str) (l : Ldr) (hl : l ≠ []) : absName (n :: l) = prefixName l ++ '/' :: n := by
  cases l with
  | nil => exact absurd rfl hl
  | cons m l =>
    unfold prefixName
    rw [absName.eq_3 n (m :: l) (by simp)]
    split
    · rfl
    · rfl

theorem absName_elems (l : Ldr) (hl : l ≠ []) (hn : absName l ≠ ['/']) (es : List Str) (he : ∀ e ∈ es, e ≠ []) :
    absName (es.foldl namespaceOf l) = absName l ++ (es.map ('/' :: ·)).flatten := by
  induction es generalizing l with
  | nil => simp
  | cons e es ih =>
    rw [List.foldl_cons]
    have h1 : namespaceOf l e = e :: l := by
      unfold namespaceOf; rw [if_neg (he e List.mem_cons_self)]
    have h2 : absName (e :: l) = absName l ++ '/' :: e := by
      rw [absName_push e l hl, prefixName, if_neg hn]
    rw [h1, ih (e :: l) (by simp) _ (fun x hx => he x (List.mem_cons_of_mem _ hx)), h2]
    · simp
    · rw [h2]
      intro hh
      have := congrArg List.length hh
      have : absName l = [] := List.eq_nil_of_length_eq_zero (by simp at this; omega)
      cases l with
      | nil => exact hl rfl
      | cons m l =>
        cases l with
        | nil => simp [absName] at this
        | cons k l =>
          rw [absName_push m (k :: l) (by simp)] at this
          simp at this

theorem joinSlash_flatten (es : List Str) (hne : es ≠ []) : '/' :: joinSlash es = (es.map ('/' :: ·)).flatten := by
  induction es with
  | nil => exact absurd rfl hne
  | cons e es ih =>
    cases es with
    | nil => simp [joinSlash]
    | cons f fs =>
      rw [joinSlash.eq_3 e (f :: fs) (by simp), List.map_cons, List.flatten_cons, ← ih (by simp)]
      rfl

theorem mark_eq : "/plugin/".toList = "/plugin".toList ++ ['/'] := by decide

theorem mark_drop (r : Str) : (pluginMark ++ r).drop 7 = '/' :: r := rfl

theorem namespace_plugin (l : Ldr) : namespaceOf l "plugin".toList = "plugin".toList :: l := rfl

theorem prefixName_plugin (l : Ldr) (hl : l ≠ []) : absName ("plugin".toList :: l) = prefixName l ++ "/plugin".toList :=
  absName_push "plugin".toList l hl

theorem indexOf_none (sub s : Str) (hsub : sub ≠ []) (hs : ∀ a r, s ≠ a ++ sub ++ r) : indexOf sub s = none := by
  induction s with
  | nil => rw [indexOf, if_neg hsub]
  | cons c cs ih =>
    rw [indexOf, if_neg, ih]
    · rfl
    · intro a r har
      exact hs (c :: a) r (by rw [har]; rfl)
    · intro hst
      obtain ⟨r, hr⟩ := (startsWith_iff _ _).mp hst
      exact hs [] r hr

theorem indexOf_root_of (m k b : Str) (hk : k = m ++ ['/']) (hm : ∀ a r, b ++ k = a ++ k ++ r → r = []) :
    indexOf k (b ++ m) = none := by
  subst hk
  refine indexOf_none _ _ (by simp) (fun a r har => ?_)
  have := hm a (r ++ ['/']) (by rw [← List.append_assoc b, har]; simp)
  exact absurd this (by simp)

/-- There is no plugin at the root. -/
theorem indexOf_root (b : Str) (hm : MarkLast b) : indexOf pluginMark (b ++ "/plugin".toList) = none :=
  indexOf_root_of _ _ b mark_eq hm

theorem indexOf_plugin_of (m k b rest : Str) (hk : k = m ++ ['/']) (hm : ∀ a r, b ++ k = a ++ k ++ r → r = []) :
    indexOf k (b ++ m ++ '/' :: rest) = some b.length := by
  subst hk
  have := indexOf_first (m ++ ['/']) b rest (by simp) hm
  simpa using this

theorem indexOf_plugin (b : Str) (hm : MarkLast b) (rest : Str) :
    indexOf pluginMark (b ++ "/plugin".toList ++ '/' :: rest) = some b.length :=
  indexOf_plugin_of _ _ b rest mark_eq hm

theorem drop_plugin (b rest : Str) : (b ++ "/plugin".toList ++ '/' :: rest).drop (b.length + 7) = '/' :: rest := by
  have h : (b ++ "/plugin".toList).length = b.length + 7 := by simp
  rw [← h, List.drop_left]

theorem pluginNs_elems (l : Ldr) (es : List Str) (he : RootElems es) :
    pluginNs l ('/' :: joinSlash es) = es.foldl namespaceOf ("plugin".toList :: l) := by
  unfold pluginNs
  rw [splitSlash, if_pos rfl, List.foldl_cons, namespace_plugin]
  cases es with
  | nil => rfl
  | cons e es => rw [splitSlash_join _ (by simp) (fun e hx => (he e hx).1.2.1)]; rfl

/-- The namespace of a plugin names its path again. -/
theorem pluginOf_named (l : Ldr) (hl : l ≠ []) (hm : MarkLast (prefixName l)) (es : List Str) (he : RootElems es) :
    pluginOf (pluginNs l ('/' :: joinSlash es)) = if es = [] then none else some ('/' :: joinSlash es) := by
  have h2 := prefixName_plugin l hl
  have h3 : absName ("plugin".toList :: l) ≠ ['/'] := by
    rw [h2]
    intro hh
    have := congrArg List.length hh
    simp at this
  rw [pluginNs_elems l es he, pluginOf, absName_elems _ (by simp) h3 es (fun e hx => (he e hx).1.1), h2]
  cases es with
  | nil =>
    simp only [List.map_nil, List.flatten_nil, List.append_nil, if_true, indexOf_root _ hm]
  | cons e es =>
    rw [← joinSlash_flatten _ (by simp)]
    simp only [indexOf_plugin _ hm, drop_plugin, reduceCtorEq, if_false]

theorem pluginPath_named (E : Env) (e : Entry) (n : Str) (hcwd : isAbs E.cwd = true) :
    pluginPath E e n = named (pluginPlace E.cwd e n) := by
  have hfile : (if e.pluginFile = [] then n else e.pluginFile) = pluginFileOf e n := by
    unfold pluginFileOf
    cases h : e.pluginFile <;> simp
  unfold pluginPath pluginPlace
  simp only [hfile]
  cases hf : isAbs (pluginFileOf e n) with
  | true => simp only [if_true]; exact clean_named hf _
  | false =>
    simp only [Bool.false_eq_true, if_false]
    rw [absPath_named hcwd _ [], place_clean]
    by_cases hd : e.pluginDir = []
    · rw [hd, join_nil, place_rel hf, place_rel hf]
      rfl
    · rw [place_join hd, place_rel hf]

end Hiera
