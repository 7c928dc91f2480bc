/- C69: what answers are made of. -/
import Verif.Lemmas.Holds
import Verif.Lemmas.World
import Verif.Lemmas.Merge

set_option autoImplicit false

namespace Hiera

open Value World

/-- A value is made of texts, numbers, and of those other atoms (truth values, sensitive values and values that hiera does
not look into) that `P` allows. -/
inductive Spec.MadeOf (P : Value → Prop) : Value → Prop
  | null : MadeOf P .null
  | str (s : Str) : MadeOf P (.str s)
  | int (i : Int) : MadeOf P (.int i)
  | bool {b : Bool} : P (.bool b) → MadeOf P (.bool b)
  | sensitive {v : Value} : P (.sensitive v) → MadeOf P (.sensitive v)
  | opaque {n : Nat} : P (.opaque n) → MadeOf P (.opaque n)
  | arr {es : List Value} : (∀ x ∈ es, MadeOf P x) → MadeOf P (.arr es)
  | map {es : Entries} : (∀ e ∈ es, MadeOf P e.1) → (∀ e ∈ es, MadeOf P e.2) → MadeOf P (.map es)

open Spec

/-! ### Keys of maps -/

theorem wf_buryParts (ps : List Part) {x : Value} (hx : WF x) : WF (buryParts ps x) := by
  induction ps with
  | nil => exact hx
  | cons p ps ih =>
    rw [buryParts, WF_map]
    refine ⟨fun e he => ?_, ?_⟩
    · rw [List.mem_singleton.mp he]
      exact ⟨by cases p <;> simp [Part.toValue], ih⟩
    · simp [UniqueKeys]

theorem vals_wf {E : Env} (h : Sources E WF) : Vals E WF where
  toSources := h
  null := WF_null
  str := WF_str
  arr := WF_arr.mpr
  arr_mem := WF_arr.mp
  map_mem := fun h => (WF_map.mp h).1
  nil := Entries.WF_nil
  put := Entries.WF_put
  merge := by
    intro s a b ha hb
    cases s with
    | first => exact ha
    | unique =>
      refine WF_arr.mpr (fun x hx => ?_)
      rw [convertUnique_eq, convertUnique_eq] at hx
      rcases List.mem_append.mp (unique_mem hx) with hx | hx
      · exact flattenV_WF _ ha x hx
      · exact flattenV_WF _ hb x hx
    | hash =>
      simp only [Strategy.merge]
      split
      · exact Entries.WF_merge hb ha
      · exact ha
    | deep o => exact deep_WF ha hb
  convert := by
    intro s a ha
    cases s with
    | unique => exact WF_arr.mpr (fun x hx => flattenV_WF _ ha x (by rwa [convertUnique_eq] at hx))
    | _ => exact ha
  single := by
    intro s a ha
    cases s with
    | unique =>
      cases a with
      | arr es => exact WF_arr.mpr (fun x hx => flatten_WF es (WF_arr.mp ha) x (unique_mem hx))
      | _ => exact ha
    | _ => exact ha
  bury := fun k _ hx => wf_buryParts _ hx

/-- C69: if no map in the data files, the variables, the options and the results of functions and constructors has a key
twice, then no map in an answer has, at any depth. -/
theorem C69_keys {E : Env} (h : Sources E WF) {s t : St} (hs : Served E WF s) {n : Nat} {key : Str} {k : Key} {opts : Entries}
    {v : Value} (hk : newKey key = .ok k) (ho : WF (.map opts)) (hl : (eval E n).lookup k opts s = some (.ok (some v), t)) :
    WF v :=
  served_answer (vals_wf h) hs hk ho hl v rfl

/-! ### Atoms -/

section
variable {P : Value → Prop}

theorem Spec.MadeOf.arr_mem {es : List Value} (h : MadeOf P (.arr es)) : ∀ x ∈ es, MadeOf P x := by cases h with | arr h => exact h

theorem Spec.MadeOf.map_mem {es : Entries} (h : MadeOf P (.map es)) : ∀ e ∈ es, MadeOf P e.1 ∧ MadeOf P e.2 := by
  cases h with | map h1 h2 => exact fun e he => ⟨h1 e he, h2 e he⟩

theorem made_map {es : Entries} (h : ∀ e ∈ es, MadeOf P e.1 ∧ MadeOf P e.2) : MadeOf P (.map es) :=
  .map (fun e he => (h e he).1) (fun e he => (h e he).2)

theorem made_put {es : Entries} {k v : Value} (h : ∀ e ∈ es, MadeOf P e.1 ∧ MadeOf P e.2) (hk : MadeOf P k) (hv : MadeOf P v) :
    ∀ e ∈ Entries.put es k v, MadeOf P e.1 ∧ MadeOf P e.2 := by
  induction es with
  | nil => intro e he; rw [List.mem_singleton.mp he]; exact ⟨hk, hv⟩
  | cons f es ih =>
    have hf := h f List.mem_cons_self
    intro e he
    unfold Entries.put at he
    split at he
    · rcases List.mem_cons.mp he with rfl | he
      · exact ⟨hf.1, hv⟩
      · exact h e (List.mem_cons_of_mem _ he)
    · rcases List.mem_cons.mp he with rfl | he
      · exact hf
      · exact ih (fun x hx => h x (List.mem_cons_of_mem _ hx)) e he

theorem made_putAll {es fs : Entries} (h : ∀ e ∈ es, MadeOf P e.1 ∧ MadeOf P e.2) (hf : ∀ e ∈ fs, MadeOf P e.1 ∧ MadeOf P e.2) :
    ∀ e ∈ Entries.putAll es fs, MadeOf P e.1 ∧ MadeOf P e.2 := by
  unfold Entries.putAll
  induction fs generalizing es with
  | nil => exact h
  | cons f fs ih =>
    exact ih (made_put h (hf f List.mem_cons_self).1 (hf f List.mem_cons_self).2) (fun x hx => hf x (List.mem_cons_of_mem _ hx))

theorem made_get {es : Entries} (h : ∀ e ∈ es, MadeOf P e.1 ∧ MadeOf P e.2) {k v : Value} (hg : Entries.get es k = some v) :
    MadeOf P v := by
  obtain ⟨x, hx, rfl⟩ := Option.map_eq_some_iff.mp hg
  exact (h x (List.mem_of_find?_eq_some hx)).2

mutual
theorem made_flattenV : ∀ v : Value, MadeOf P v → ∀ x ∈ flattenV v, MadeOf P x
  | .arr es, h, x, hx => made_flatten es h.arr_mem x hx
  | .null, h, x, hx => by rw [List.mem_singleton.mp hx]; exact h
  | .bool _, h, x, hx => by rw [List.mem_singleton.mp hx]; exact h
  | .int _, h, x, hx => by rw [List.mem_singleton.mp hx]; exact h
  | .str _, h, x, hx => by rw [List.mem_singleton.mp hx]; exact h
  | .map _, h, x, hx => by rw [List.mem_singleton.mp hx]; exact h
  | .sensitive _, h, x, hx => by rw [List.mem_singleton.mp hx]; exact h
  | .opaque _, h, x, hx => by rw [List.mem_singleton.mp hx]; exact h
theorem made_flatten : ∀ vs : List Value, (∀ v ∈ vs, MadeOf P v) → ∀ x ∈ flatten vs, MadeOf P x
  | [], _, x, hx => nomatch hx
  | v :: vs, h, x, hx => by
    rcases List.mem_append.mp hx with hx | hx
    · exact made_flattenV v (h v List.mem_cons_self) x hx
    · exact made_flatten vs (fun y hy => h y (List.mem_cons_of_mem _ hy)) x hx
end

theorem made_deep_lt : ∀ (n : Nat) (a b : Value), sizeOf a < n → MadeOf P a → MadeOf P b → MadeOf P (deep a b).1 := by
  intro n
  induction n with
  | zero => intro a b h; omega
  | succ n ih =>
    intro a b hn ha hb
    by_cases hm : ∃ as bs, a = .map as ∧ b = .map bs
    · obtain ⟨as, bs, rfl, rfl⟩ := hm
      rw [deep_map]
      split
      · exact ha
      · refine made_map (made_putAll (made_putAll (fun _ h => nomatch h) ?_) ?_)
        · rw [deepEntries_eq]
          intro e he
          obtain ⟨⟨k, v⟩, hm, rfl⟩ := List.mem_map.1 he
          have w := ha.map_mem _ hm
          refine ⟨w.1, ?_⟩
          simp only
          split
          · rename_i bv hbv
            rw [deepValue_eq]
            refine ih _ _ ?_ w.2 (made_get hb.map_mem hbv)
            have := (sizeOf_map_mem hm).2
            simp only at this
            omega
          · exact w.2
        · exact fun e he => hb.map_mem e (List.mem_of_mem_filter he)
    · by_cases hr : ∃ as bs, a = .arr as ∧ b = .arr bs
      · obtain ⟨as, bs, rfl, rfl⟩ := hr
        rw [deep]
        split
        · split
          · exact hb
          · dsimp only
            split
            · refine .arr (fun v hv => ?_)
              rcases List.mem_append.1 (unique_mem hv) with h | h
              · exact ha.arr_mem v h
              · exact hb.arr_mem v h
            · exact ha
        · exact ha
      · have : (deep a b).1 = a := by
          cases a <;> cases b <;> first | rfl | exact absurd ⟨_, _, rfl, rfl⟩ hm | exact absurd ⟨_, _, rfl, rfl⟩ hr
        rw [this]
        exact ha

theorem made_bury (ps : List Part) {x : Value} (hx : MadeOf P x) : MadeOf P (buryParts ps x) := by
  induction ps with
  | nil => exact hx
  | cons p ps ih =>
    refine made_map (fun e he => ?_)
    rw [List.mem_singleton.mp he]
    exact ⟨by cases p <;> constructor, ih⟩

theorem vals_made {E : Env} (h : Sources E (MadeOf P)) : Vals E (MadeOf P) where
  toSources := h
  null := .null
  str := .str
  arr := .arr
  arr_mem := fun h => h.arr_mem
  map_mem := fun h => h.map_mem
  nil := made_map (fun _ h => nomatch h)
  put := fun h hk hv => made_map (made_put h.map_mem hk hv)
  merge := by
    intro s a b ha hb
    cases s with
    | first => exact ha
    | unique =>
      refine .arr (fun x hx => ?_)
      rw [convertUnique_eq, convertUnique_eq] at hx
      rcases List.mem_append.mp (unique_mem hx) with hx | hx
      · exact made_flattenV _ ha x hx
      · exact made_flattenV _ hb x hx
    | hash =>
      simp only [Strategy.merge]
      split
      · refine made_map ?_
        unfold Entries.merge
        split
        · exact hb.map_mem
        · split
          · exact ha.map_mem
          · exact made_putAll hb.map_mem ha.map_mem
      · exact ha
    | deep o => exact made_deep_lt _ a b (Nat.lt_succ_self _) ha hb
  convert := by
    intro s a ha
    cases s with
    | unique => exact .arr (fun x hx => made_flattenV _ ha x (by rwa [convertUnique_eq] at hx))
    | _ => exact ha
  single := by
    intro s a ha
    cases s with
    | unique =>
      cases a with
      | arr es => exact .arr (fun x hx => made_flatten es ha.arr_mem x (unique_mem hx))
      | _ => exact ha
    | _ => exact ha
  bury := fun k _ hx => made_bury _ hx

end

/-- C69: hiera makes up nothing but texts, numbers, arrays and maps: every truth value, every sensitive value and every value
that it does not look into is, in an answer, exactly one that a data file, a variable, an option, a function or a constructor
has given. In particular, a sensitive value is handed on as a whole, with the same content. -/
theorem C69_atoms {P : Value → Prop} {E : Env} (h : Sources E (MadeOf P)) {s t : St} (hs : Served E (MadeOf P) s) {n : Nat}
    {key : Str} {k : Key} {opts : Entries} {v : Value} (hk : newKey key = .ok k) (ho : MadeOf P (.map opts))
    (hl : (eval E n).lookup k opts s = some (.ok (some v), t)) : MadeOf P v :=
  served_answer (vals_made h) hs hk ho hl v rfl

/-- The sources of the small worlds are their files. -/
theorem sources_mk {V : Value → Prop} {c : Value} {files : List (Str × Value)} (hc : V c) (hf : ∀ x ∈ files, V x.2) :
    Sources (mk c files) V where
  yaml := by
    intro p v hv
    dsimp only [mk] at hv
    split at hv
    · cases hv; exact hc
    · split at hv
      · cases hv; exact hf _ (assoc_mem ‹_›)
      · cases hv
  json := fun _ _ h => nomatch h
  functions := fun _ _ h => nomatch h
  plugins := fun _ _ _ h => nomatch h
  top := trivial
  mux := fun _ h => nomatch h
  newValue := by intro t v as w hv _ h; cases h; exact hv

/-- Two levels that both have a map under `k`. -/
def sourcedA : Value := .map [(s "k", .map [(s "x", .bool true), (s "z", s "%{v}")])]
/-- The lower level. -/
def sourcedB : Value := .map [(s "k", .map [(s "x", s "no"), (s "y", .arr [.bool true, .int 3])])]
/-- The configuration. -/
def sourcedCfg : Value := cfg [entry "a" "a.yaml", entry "b" "b.yaml"]
/-- The world. -/
def sourcedWorld : Env := mk sourcedCfg [("/h/data/a.yaml".toList, sourcedA), ("/h/data/b.yaml".toList, sourcedB)]

/-- The answer to `k` with the strategy `hash`: the maps are merged, and the only truth value in it is the one of the data. -/
example : (match (eval sourcedWorld 10).lookup ⟨"k".toList, [.name "k".toList]⟩ [(s "merge", s "hash")]
      (newInvocation (.map [(s "v", s "w")]) none) with
    | some (.ok (some v), _) => v.same (.map [(s "x", .bool true), (s "y", .arr [.bool true, .int 3]), (s "z", s "w")])
    | _ => false) = true := by
  decide +kernel

/-- The hypotheses of `C69_keys` hold for that lookup. -/
example : Sources sourcedWorld WF ∧ Served sourcedWorld WF (newInvocation (.map [(s "v", s "w")]) none) ∧
    WF (.map [(s "merge", s "hash")]) := by
  refine ⟨sources_mk ?_ ?_, .start _ ?_, ?_⟩
  · simp [sourcedCfg, cfg, entry, WF, WFEntries, WFList, s, equals]
  · simp [sourcedA, sourcedB, WF, WFEntries, WFList, s, equals]
  · intro k v hv
    exact Entries.WF_of_get (k := .str k) (by simp [WF, WFEntries, s]) hv
  · simp [WF, WFEntries, s]

/-- The hypotheses of `C69_atoms` hold for that lookup, with `true` as the only atom. -/
example : Sources sourcedWorld (MadeOf (· = .bool true)) ∧
    Served sourcedWorld (MadeOf (· = .bool true)) (newInvocation (.map [(s "v", s "w")]) none) ∧
    MadeOf (· = .bool true) (.map [(s "merge", s "hash")]) := by
  have str : ∀ x, MadeOf (· = .bool true) (s x) := fun x => .str _
  refine ⟨sources_mk ?_ ?_, .start _ ?_, ?_⟩
  · refine made_map ?_
    simp only [List.mem_cons, List.not_mem_nil, or_false, forall_eq_or_imp, forall_eq]
    refine ⟨⟨str _, .int _⟩, str _, .arr ?_⟩
    simp only [List.mem_cons, List.not_mem_nil, or_false, forall_eq_or_imp, forall_eq]
    constructor <;> refine made_map ?_ <;>
      simp only [List.mem_cons, List.not_mem_nil, or_false, forall_eq_or_imp, forall_eq, str, and_self]
  · simp only [List.mem_cons, List.not_mem_nil, or_false, forall_eq_or_imp, forall_eq]
    constructor <;> refine made_map ?_ <;> simp only [List.mem_cons, List.not_mem_nil, or_false, forall_eq] <;>
      refine ⟨str _, made_map ?_⟩ <;>
      simp only [List.mem_cons, List.not_mem_nil, or_false, forall_eq_or_imp, forall_eq, str, true_and, and_true]
    · exact .bool rfl
    · refine .arr ?_
      simp only [List.mem_cons, List.not_mem_nil, or_false, forall_eq_or_imp, forall_eq]
      exact ⟨.bool rfl, .int _⟩
  · intro k v hv
    refine made_get (es := [(s "v", s "w")]) (k := .str k) ?_ hv
    simp only [List.mem_cons, List.not_mem_nil, or_false, forall_eq, str, and_self]
  · refine made_map ?_
    simp only [List.mem_cons, List.not_mem_nil, or_false, forall_eq, str, and_self]

end Hiera
