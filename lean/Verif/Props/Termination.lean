/- C59: lookups are deterministic, and end if data does not refer to itself. -/
import Verif.Lemmas.Termination2
import Verif.Lemmas.World
import Verif.Props.Recursion

set_option autoImplicit false

namespace Hiera
open Value Spec World

/-- C59: a lookup has at most one outcome. It does not depend on how often the recursion may be unfolded. -/
theorem C59_deterministic (E : Env) (n m : Nat) (k : Key) (opts : Entries) (s : St) (r r' : Res (Option Value) × St)
    (h : (eval E n).lookup k opts s = some r) (h' : (eval E m).lookup k opts s = some r') : r = r' :=
  lookup_det E h h'

example : ∃ r, (eval (two [(s "x", s "a")] []) 3).lookup ⟨"x".toList, [.name "x".toList]⟩ [] (st []) = some r :=
  Option.isSome_iff_exists.1 (by decide +kernel)

/-- If a chain of needs stays in a list, and nothing needs itself, then it is no longer than the list. -/
theorem acc_of_acyclic {α : Type} {R : α → α → Prop} (hac : ∀ i, ¬Relation.TransGen R i i) (l : List α)
    (hl : ∀ i j, R i j → j ∈ l) (i : α) : Acc (fun j i => R i j) i := by
  have main : ∀ n (m : List α), m.length ≤ n → ∀ i, (∀ j, Relation.TransGen R i j → j ∈ m) → Acc (fun j i => R i j) i := by
    intro n
    induction n with
    | zero =>
      intro m hm i hi
      refine ⟨_, fun j hj => ?_⟩
      have := hi j (.single hj)
      rw [List.length_eq_zero_iff.1 (Nat.le_zero.1 hm)] at this
      cases this
    | succ n ih =>
      intro m hm i hi
      refine ⟨_, fun j hj => ?_⟩
      classical
      refine ih (m.filter (fun x => decide (x ≠ j))) ?_ j (fun x hx => ?_)
      · have hlt : (m.filter (fun x => decide (x ≠ j))).length < m.length :=
          List.length_filter_lt_length_iff_exists.2 ⟨j, hi j (.single hj), by simp⟩
        omega
      · rw [List.mem_filter]
        refine ⟨hi x (.head hj hx), ?_⟩
        simp only [decide_eq_true_eq]
        rintro rfl
        exact hac _ hx
  refine main _ l (Nat.le_refl _) i (fun j hj => ?_)
  cases hj with
  | single h => exact hl _ _ h
  | tail _ h => exact hl _ _ h

/-- C59: if data does not refer to itself then lookups end, with a value, nothing or a panic, whatever the hierarchy, the
providers, the merge strategies and the state that earlier lookups of the invocation left. Missing from the full claim, which is
false (`C59_false`): data whose text becomes an expression only by interpolation. -/
theorem C59_terminates_partial (E : Env) (T : Str → Prop) (sc : Scope) (hR : Regular E T sc) (hA : Acyclic E T sc) (s : St)
    (hs : Usable E T sc s.v) (k : Key) (opts : Entries) :
    ∃ n r t, (∀ m, n ≤ m → (eval E m).lookup k opts s = some (r, t)) ∧ (∀ v, r = .ok v → Usable E T sc t.v) := by
  obtain ⟨l, hl⟩ := hA.finite
  have hacc := acc_of_acyclic hA.irrefl l hl
  obtain ⟨N, r, t, h1, h2⟩ := (good_of_acc hR (fun x => hacc _) (hacc (.key k.root))).1 rfl k opts rfl s hs
  exact ⟨N, r, t, h1, fun v hv => (h2 v hv).1⟩

/-- C59: it is enough that what the key needs is well-founded: cycles elsewhere do no harm. -/
theorem C59_terminates_key_partial (E : Env) (T : Str → Prop) (sc : Scope) (hR : Regular E T sc)
    (hv : ∀ x, Acc (fun j i => Needs E T sc i j) (.var x)) (s : St) (hs : Usable E T sc s.v) (k : Key) (opts : Entries)
    (hk : Acc (fun j i => Needs E T sc i j) (.key k.root)) :
    ∃ n r t, ∀ m, n ≤ m → (eval E m).lookup k opts s = some (r, t) := by
  obtain ⟨N, r, t, h1, _⟩ := (good_of_acc hR hv hk).1 rfl k opts rfl s hs
  exact ⟨N, r, t, h1⟩

/-- C59: values that lookups end with have no expressions in them. -/
theorem C59_no_expressions (E : Env) (T : Str → Prop) (sc : Scope) (hR : Regular E T sc) (hA : Acyclic E T sc) (s t : St)
    (hs : Usable E T sc s.v) (k : Key) (opts : Entries) (n : Nat) (v : Value)
    (h : (eval E n).lookup k opts s = some (.ok (some v), t)) : ∀ x, Occurs v x → ¬Marked x := by
  obtain ⟨l, hl⟩ := hA.finite
  have hacc := acc_of_acyclic hA.irrefl l hl
  obtain ⟨N, r, u, h1, h2⟩ := (good_of_acc hR (fun x => hacc _) (hacc (.key k.root))).1 rfl k opts rfl s hs
  have := lookup_det E h (h1 N (Nat.le_refl _))
  cases this
  exact fun x hx => hR.inert.unmarked (cleanO_some.1 (h2 _ rfl).2 x hx)

/-- C59: an invocation starts in a usable state. -/
theorem C59_fresh (E : Env) (T : Str → Prop) (sc : Scope) : Usable E T sc { ic := { scope := sc } } where
  scope := fun _ _ h => .inl h
  locked := rfl
  hashes := fun _ _ _ _ h => by cases h
  cache := fun _ _ _ h => by cases h
  configs := fun _ _ _ h => by cases h

/-! An example: `a.yaml` has a value that refers to a key of `b.yaml` and to a variable. -/

namespace Acyclic59

/-- Text without percent signs. -/
def T (x : Str) : Prop := '%' ∉ x

instance (x : Str) : Decidable (T x) := inferInstanceAs (Decidable ('%' ∉ x))

/-- The value that refers to others. -/
def text : Str := "%{lookup('y')} of %{v}".toList

def world : Env := two [(s "x", .str text), (s "z", .arr [s "plain"])] [(s "y", s "text")]

def scope : Scope := .map [(s "v", s "nine")]

theorem inert : Inert T where
  nil := by decide
  append := fun h h' hm => (List.mem_append.1 hm).elim h h'
  unmarked := by rintro _ h ⟨a, b, rfl⟩; exact h (by simp)

theorem getS_mem {es : Entries} {q : Str} {v : Value} (h : Entries.getS es q = some v) : (.str q, v) ∈ es := by
  obtain ⟨⟨k, x⟩, he, hk, rfl⟩ := Entries.get_mem h
  rw [equals_str_iff] at hk
  exact hk ▸ he

theorem data {es : Entries} (h : DataMap world T scope es) {q : Str} {v : Value} (hg : Entries.getS es q = some v) :
    Clean T v ∨ (q = "x".toList ∧ v = .str text) := by
  cases h with
  | yaml h =>
    have hm := getS_mem hg
    simp only [world, two, mk] at h
    split at h
    · injection h with h
      injection h with h
      subst h
      left
      simp only [List.mem_cons, Prod.mk.injEq, List.mem_nil_iff, or_false] at hm
      rcases hm with ⟨-, rfl⟩ | ⟨-, rfl⟩
      · exact clean_int
      · simp only [clean_arr, entry, clean_map, List.forall_mem_cons, s, clean_str, List.not_mem_nil, false_imp_iff, implies_true]
        decide
    · simp only [assoc] at h
      split at h
      · rename_i h'
        split at h'
        · injection h with h
          subst h
          simp only [Option.some.injEq, Value.map.injEq] at h'
          subst h'
          simp only [List.mem_cons, Prod.mk.injEq, List.mem_nil_iff, or_false, s, Value.str.injEq] at hm
          rcases hm with ⟨h1, rfl⟩ | ⟨-, rfl⟩
          · exact .inr ⟨h1, rfl⟩
          · left
            simp only [clean_arr, List.forall_mem_cons, clean_str, List.not_mem_nil, false_imp_iff, implies_true]
            decide
        · split at h'
          · injection h with h
            subst h
            simp only [Option.some.injEq, Value.map.injEq] at h'
            subst h'
            simp only [List.mem_cons, Prod.mk.injEq, List.mem_nil_iff, or_false, s, Value.str.injEq] at hm
            obtain ⟨-, rfl⟩ := hm
            left
            rw [clean_str]
            decide
          · cases h'
      · cases h
  | json h => cases h
  | hash h => obtain ⟨n, h | ⟨p, h⟩⟩ := h <;> cases h
  | cached h => rcases h with ⟨n, h | ⟨p, h⟩⟩ | h | ⟨fs, h, _⟩ <;> cases h

theorem vars {n : Str} {v : Value} (h : scope.get n = some v) : Clean T v := by
  have hm := getS_mem h
  simp only [List.mem_cons, Prod.mk.injEq, List.mem_nil_iff, or_false] at hm
  obtain ⟨-, rfl⟩ := hm
  rw [s, clean_str]
  decide

theorem source {r : Str} {v : Value} (h : Source world T scope r v) :
    ∀ x, Occurs v x → T x ∨ (AskedAs r "x".toList ∧ x = text) := by
  induction h with
  | @data r q es v hq h hg =>
    intro x hx
    rcases data h hg with h | ⟨rfl, rfl⟩
    · exact .inl (h x hx)
    · cases hx
      exact .inr ⟨hq, rfl⟩
  | @env r q v hq h =>
    intro x hx
    unfold envLookup at h
    split at h
    · cases h
      cases hx with
      | key h => cases h
      | val h => cases h
    · split at h <;> cases h
  | scope hq h => exact fun x hx => .inl (vars h x hx)
  | custom hq h => rcases h with ⟨n, h | ⟨p, h⟩⟩ | h | ⟨fs, h, _⟩ <;> cases h
  | dig _ h => obtain ⟨n, h | ⟨p, h⟩⟩ := h <;> cases h
  | options _ ih =>
    intro x hx
    rcases ih x hx with h | ⟨h, _⟩
    · exact .inl h
    · rcases h with h | ⟨k, h1, h2⟩
      · exact absurd h (by decide)
      · have : newKey "lookup_options".toList = .ok ⟨"lookup_options".toList, [.name "lookup_options".toList]⟩ := by decide +kernel
        rw [this] at h1
        cases h1
        exact absurd h2 (by decide)
  | @conv r t x as y w h1 _ h3 ih =>
    intro s hs
    by_cases hT : T s
    · exact .inl hT
    · cases h3
      exact ih x (List.mem_cons_self ..) s hs hT s (h1 x (List.mem_cons_self ..) s hs hT)

theorem text_splits : Splits text [.expr "lookup('y')".toList, .chr ' ', .chr 'o', .chr 'f', .chr ' ', .expr "v".toList] := by
  have : tokens text = [.expr "lookup('y')".toList, .chr ' ', .chr 'o', .chr 'f', .chr ' ', .expr "v".toList] := by decide +kernel
  exact this ▸ tokens_splits text

theorem tidy_text : TidyStr T text := by
  intro ts hts
  rw [splits_unique hts text_splits]
  refine .expr (fun x arg hx hc => ?_) (.text (s := " of ".toList) (by decide) (.expr (fun x arg hx hc => ?_) .nil))
  · have h1 := trimmed_unique hx
    have h2 := (methodMatch_iff _ _ _).2 hc
    rw [← h1] at h2
    revert h2
    have : methodMatch (trimSpace "lookup('y')".toList) = some ("lookup".toList, "y".toList) := by decide +kernel
    rw [this]
    intro h
    have hn : "lookup".toList = "literal".toList := congrArg Prod.fst (Option.some.inj h)
    exact absurd hn (by decide)
  · have h1 := trimmed_unique hx
    have h2 := (methodMatch_iff _ _ _).2 hc
    rw [← h1] at h2
    have : methodMatch (trimSpace "v".toList) = none := by decide +kernel
    rw [this] at h2
    cases h2

theorem tidy_plain {x : Str} (h : T x) : TidyStr T x := by
  intro ts hts
  rw [splits_unique hts (splits_unmarked (inert.unmarked h))]
  have := TidyToks.text h (TidyToks.nil (T := T))
  rwa [List.append_nil] at this

theorem no_refs {x e : Str} {ts : List Tok} (h : T x) (hs : Splits x ts) (he : Tok.expr e ∈ ts) : False := by
  rw [splits_unique hs (splits_unmarked (inert.unmarked h))] at he
  simp at he

theorem regular : Regular world T scope where
  inert := inert
  keys := fun r v h x hx => (source h x hx).elim tidy_plain (fun h => h.2 ▸ tidy_text)
  vars := fun n v h x hx => tidy_plain (vars h x hx)
  text := fun v h => by cases v <;> first | exact clean_str.1 h | exact inert.nil
  entries := fun f h => by obtain ⟨n, h | ⟨p, h⟩⟩ := h <;> cases h
  mux := fun fs h => by cases h

theorem text_refers {i : Referent} {ts : List Tok} {e x : Str} (hts : Splits text ts) (he : Tok.expr e ∈ ts) (hx : Trimmed e x)
    (h : ExprRefers x i) : i = .key "y".toList ∨ i = .var "v".toList := by
  rw [splits_unique hts text_splits] at he
  have ht := trimmed_unique hx
  simp only [List.mem_cons, Tok.expr.injEq, reduceCtorEq, List.mem_nil_iff, or_false, false_or] at he
  rcases he with rfl | rfl
  · have hm : methodMatch (trimSpace "lookup('y')".toList) = some ("lookup".toList, "y".toList) := by decide +kernel
    have hk : newKey "y".toList = .ok ⟨"y".toList, [.name "y".toList]⟩ := by decide +kernel
    rw [ht] at hm
    cases h with
    | key hc _ hn =>
      rw [(methodMatch_iff _ _ _).2 hc] at hm
      cases hm
      rw [hk] at hn
      cases hn
      exact .inl rfl
    | scope hc _ =>
      rw [(methodMatch_iff _ _ _).2 hc] at hm
      have hn : "scope".toList = "lookup".toList := congrArg Prod.fst (Option.some.inj hm)
      exact absurd hn (by decide)
    | var hc _ => exact absurd ((methodMatch_iff _ _ _).1 hm) (hc _ _)
  · have hm : methodMatch (trimSpace "v".toList) = none := by decide +kernel
    have hk : newKey "v".toList = .ok ⟨"v".toList, [.name "v".toList]⟩ := by decide +kernel
    have htr : trimSpace "v".toList = "v".toList := by decide +kernel
    rw [ht] at hm
    rw [ht] at htr
    subst htr
    cases h with
    | key hc _ hn => rw [(methodMatch_iff _ _ _).2 hc] at hm; cases hm
    | scope hc _ => rw [(methodMatch_iff _ _ _).2 hc] at hm; cases hm
    | var hc hn =>
      rw [hk] at hn
      cases hn
      exact .inr rfl

/-- The longest chains are from any key to `y`, and from there to the lookup options. -/
def rank : Referent → Nat
  | .var _ => 0
  | .key r => if r = "lookup_options".toList then 0 else if r = "y".toList then 1 else 2

theorem needs {i j : Referent} (h : Needs world T scope i j) :
    rank j < rank i ∧ j ∈ [.key "y".toList, .var "v".toList, .key "lookup_options".toList] := by
  cases h with
  | @ref r v j h hr =>
    obtain ⟨x, ts, e, y, hx, hts, he, hy, hj⟩ := hr
    rcases source h x hx with hT | ⟨hq, rfl⟩
    · exact (no_refs hT hts he).elim
    · have hrank : rank (.key r) = 2 := by
        have : r ≠ "lookup_options".toList ∧ r ≠ "y".toList := by
          have h1 : newKey "lookup_options".toList = .ok ⟨"lookup_options".toList, [.name "lookup_options".toList]⟩ := by decide +kernel
          have h2 : newKey "y".toList = .ok ⟨"y".toList, [.name "y".toList]⟩ := by decide +kernel
          constructor
          · rintro rfl
            rcases hq with h | ⟨k, hk, h⟩
            · exact absurd h (by decide)
            · rw [h1] at hk; cases hk; exact absurd h (by decide)
          · rintro rfl
            rcases hq with h | ⟨k, hk, h⟩
            · exact absurd h (by decide)
            · rw [h2] at hk; cases hk; exact absurd h (by decide)
        simp only [rank, this.1, this.2, if_false]
      rw [hrank]
      rcases text_refers hts he hy hj with rfl | rfl
      · exact ⟨by decide, by simp⟩
      · exact ⟨by decide, by simp⟩
  | fn _ h => rcases h with ⟨n, h | ⟨p, h⟩⟩ | h | ⟨fs, h, _⟩ <;> cases h
  | @options r hr =>
    refine ⟨?_, by simp⟩
    simp only [rank, if_neg hr, if_true]
    split <;> decide
  | var h hr =>
    obtain ⟨x, ts, e, y, hx, hts, he, _⟩ := hr
    exact (no_refs (vars h x hx) hts he).elim

theorem acyclic : Acyclic world T scope where
  irrefl := by
    have : ∀ i j, Relation.TransGen (Needs world T scope) i j → rank j < rank i := by
      intro i j h
      induction h with
      | single h => exact (needs h).1
      | tail _ h ih => exact Nat.lt_trans (needs h).1 ih
    exact fun i h => Nat.lt_irrefl _ (this i i h)
  finite := ⟨_, fun i j h => (needs h).2⟩

/-- So lookups of any key end there. -/
example (k : Key) (opts : Entries) : ∃ n r t, ∀ m, n ≤ m → (eval world m).lookup k opts { v := { ic := { scope } } } = some (r, t) :=
  let ⟨n, r, t, h, _⟩ := C59_terminates_partial world T scope regular acyclic { v := { ic := { scope } } } (C59_fresh ..) k opts
  ⟨n, r, t, h⟩

/-- And that of `x` ends as it should. -/
example : ask world 8 "x" [(s "v", s "nine")] = some (.ok (some (s "text of nine"))) := by decide +kernel

end Acyclic59

/-! That the text is regular is needed: text that is not an expression may become one, and it is interpolated again. -/

namespace Untidy59

open Acyclic59 (T inert getS_mem no_refs)

/-- The value of `y`. Its only expression is a call of `literal`, so it refers to nothing. -/
def text : Str := "%{literal('%')}{lookup('y')}".toList

/-- The value of `x` refers to `y`. -/
def ref : Str := "%{lookup('y')}".toList

def hash : Entries := [(s "x", .str ref), (s "y", .str text)]

def world : Env := two hash []

def scope : Scope := .map []

theorem text_splits : Splits text (.expr "literal('%')".toList :: "{lookup('y')}".toList.map .chr) := by
  have : tokens text = .expr "literal('%')".toList :: "{lookup('y')}".toList.map .chr := by decide +kernel
  exact this ▸ tokens_splits text

theorem ref_splits : Splits ref [.expr "lookup('y')".toList] := by
  have : tokens ref = [.expr "lookup('y')".toList] := by decide +kernel
  exact this ▸ tokens_splits ref

/-- What the text of `y` is interpolated to has an expression. -/
theorem interpolated (E : Env) (n : Nat) (st : St) (ho : st.on = none) :
    interpolate E (eval E n) true (.str text) st = some (.ok (some (.str ref)), st) := by
  rw [interpolate_str E (eval E n) true text_splits ?_ ho]
  · have h : outs E (eval E n) true (.expr "literal('%')".toList :: "{lookup('y')}".toList.map .chr) st = some (.ok ref, st) := by
      have hc : ∀ (l : Str), outs E (eval E n) true (l.map .chr) st = some (.ok l, st) := by
        intro l
        induction l with
        | nil => rfl
        | cons c l ih =>
          show (do let r ← outs E (eval E n) true (l.map .chr); pure (c :: r) : M Str) st = _
          rw [bind_ok ih]
          rfl
      have he : exprOut E (eval E n) true "literal('%')".toList st = some (.ok "%".toList, st) := by
        unfold exprOut
        have h1 : emptyInterpolation (trimSpace "literal('%')".toList) = false := by decide +kernel
        have h2 : getMethodAndData (trimSpace "literal('%')".toList) true = .ok (.literal, "%".toList) := by decide +kernel
        rw [h1, h2]
        rfl
      show (do
        let t ← exprOut E (eval E n) true "literal('%')".toList
        let r ← outs E (eval E n) true ("{lookup('y')}".toList.map .chr)
        pure (t ++ r) : M Str) st = _
      rw [bind_ok he, bind_ok (hc _)]
      rfl
    rw [bind_ok h]
    rfl
  · rintro e he ⟨x, name, arg, hx, hc, hn⟩
    rcases List.mem_cons.1 he with h | h
    · cases h
      have h1 := trimmed_unique hx
      have h2 := (methodMatch_iff _ _ _).2 hc
      have h3 : methodMatch (trimSpace "literal('%')".toList) = some ("literal".toList, "%".toList) := by decide +kernel
      rw [← h1, h3] at h2
      cases h2
      revert hn
      decide
    · simp at h

/-- The lookup of `y` within another never ends. -/
theorem endless (E : Env) (s : St) (ht : E.top = .config) (ho : s.on = none) (hm : s.v.ic.mode = .data)
    (hs : s.v.ic.strategy = some .first) (rc : RCfg) (hc : assoc E.configPath s.v.configs = some rc) (p : Prov) (l : Loc)
    (rest : List (Prov × Option Loc)) (m : Str) (h1 : rc.providers.flatMap places = (p, some l) :: rest)
    (h2 : p.entry.function = some (.dataHash, m)) (h3 : assoc (p, l.resolved) s.v.hashes = some hash)
    (n : Nat) (k : Key) (o : Entries) (hk : k.root = "y".toList) : (eval E n).lookup k o s = none := by
  induction n generalizing k o with
  | zero => rfl
  | succ n ih =>
    show lookup E (eval E n) k o s = none
    unfold lookup
    rw [hk, if_neg (by decide), ht]
    have hv : view s = some (.ok s.v, s) := rfl
    have hy : newKey "y".toList = .ok ⟨"y".toList, [.name "y".toList]⟩ := by decide +kernel
    have hcall : callLk E (eval E n) .config o "y".toList s = some (.ok (some (.str ref)), s) := by
      show configAt E (eval E n) E.configPath o "y".toList [] s = _
      unfold configAt
      rw [bind_ok (config_known E _ s rc _ hc), hy, M.lift_ok_bind, bind_ok hv, hm]
      have hcur : currentStrategy s = some (.ok .first, s) := by
        unfold currentStrategy
        rw [bind_ok hv, hs]
        rfl
      simp only
      rw [bind_ok hcur]
      refine (C30_order E n _ rc.providers s s _ ho).2 ?_
      rw [h1]
      refine .hit ?_
      unfold provLookup
      simp only [h2]
      unfold dataHashLookup
      have hd : dataHash E p m (some l) s = some (.ok hash, s) := by
        unfold dataHash
        rw [bind_ok hv]
        exact (congrArg (fun a : Option Entries => (match a with
          | some h => pure h
          | none => do
            let h ← callHash E p m (optionsFor p (some l))
            update (fun w => { w with hashes := ((p, l.resolved), h) :: w.hashes })
            pure h : M Entries) s) h3 :)
      rw [bind_ok hd]
      have hg : Entries.getS hash (Key.root ⟨"y".toList, [.name "y".toList]⟩) = some (.str text) := by decide +kernel
      rw [hg]
      simp only
      rw [bind_ok (interpolated E n s ho)]
      unfold reportResult
      simp only
      rw [bind_ok (Quiet.off_report ho)]
      rfl
    rw [bind_ok hcall]
    simp only
    unfold forData
    rw [bind_ok hv, if_pos hm]
    refine bind_none ?_
    have hint := C16_lookup E n "lookup('y')".toList "lookup('y')".toList "lookup".toList "y".toList (by decide)
      ⟨⟨[], [], by simp, by simp, by simp⟩, by decide, by decide⟩
      ⟨by decide, by decide, by decide, '\'', .inl rfl, by decide, by decide⟩ (.inl rfl) s ho
    have href : "%{".toList ++ "lookup('y')".toList ++ "}".toList = ref := by decide
    rw [href, hy, M.lift_ok_bind] at hint
    rw [hint]
    exact bind_none (ih _ _ rfl)

/-- What the theorem needs to know of the state after loading the configuration. -/
def facts : Option (Res RCfg × St) → Bool
  | some (.ok rc, t) => t.on.isNone && decide (t.v.ic.mode = .top) && rc.lookupOptions.isNone &&
    (match rc.providers.flatMap places with
      | (p, some l) :: _ => decide (p.entry.function = some (.dataHash, "yaml_data".toList)) &&
        decide (assoc (p, l.resolved) t.v.hashes = some hash)
      | _ => false)
  | _ => false

/-- The lookup of `x` never ends. -/
theorem endless_top (n : Nat) : ask world n "x" = none := by
  have hf : facts (config world (eval world 0) world.configPath [] (st [])) = true := by decide +kernel
  cases hc : config world (eval world 0) world.configPath [] (st []) with
  | none => rw [hc] at hf; cases hf
  | some q =>
    obtain ⟨rc | e, t⟩ := q
    · rw [hc] at hf
      simp only [facts, Bool.and_eq_true, decide_eq_true_eq, Option.isNone_iff_eq_none] at hf
      obtain ⟨⟨⟨ho, hm⟩, hl⟩, h4⟩ := hf
      have hput := config_put _ _ _ _ _ _ _ hc
      rw [if_neg (by decide)] at hput
      split at h4
      swap
      · cases h4
      rename_i p l rest hpl
      simp only [Bool.and_eq_true, decide_eq_true_eq] at h4
      cases n with
      | zero => rfl
      | succ n =>
        unfold ask
        rw [lookup_first_config world n ⟨"x".toList, [.name "x".toList]⟩ (st []) t rc rfl (by decide)
          ((Le.base.closed world Le.forConfig).config (zero_le_eval world n) _ _ _ _ hc) hput ?_]
        · rfl
        show lookup world (eval world n) ⟨"x".toList, [.name "x".toList]⟩ [] t = none
        unfold lookup
        rw [if_neg (by decide)]
        refine bind_none ?_
        show configAt world (eval world n) world.configPath [] "x".toList [] t = none
        have hx : newKey "x".toList = .ok ⟨"x".toList, [.name "x".toList]⟩ := by decide +kernel
        unfold configAt
        have hv : view t = some (.ok t.v, t) := rfl
        rw [bind_ok (config_known world _ t rc _ hput), hx, M.lift_ok_bind, bind_ok hv, hm]
        simp only
        have hopt : rc.optionsOf ⟨"x".toList, [.name "x".toList]⟩ = none := by unfold RCfg.optionsOf; rw [hl]
        have hnil : Entries.getS [] "merge".toList = none := rfl
        rw [hopt, hnil, asking_top (k := ⟨"x".toList, [.name "x".toList]⟩) (o := none) (s := .first) (c := none) (by rintro m ⟨⟩) (by rintro v ⟨⟩)
          (.none rfl (by rintro m ⟨⟩)) .none .noOptions hm ho]
        rw [hierarchy_endless world n (asking t none .first (sensitiveTo world none)) ho rc (fun r => r = "y".toList)
          (fun k o hk => ?_) "x".toList ?_ _ rfl .first]
        · exact ⟨p, some l, rest, _, hash, "lookup('y')".toList, "lookup('y')".toList, "lookup".toList, "y".toList,
            ⟨"y".toList, [.name "y".toList]⟩, hpl, h4.1, h4.2, by decide, by decide,
            ⟨⟨[], [], by simp, by simp, by simp⟩, by decide, by decide⟩,
            ⟨by decide, by decide, by decide, '\'', .inl rfl, by decide, by decide⟩, .inl rfl, by decide, rfl⟩
        · exact endless world (asking t none .first (sensitiveTo world none)) rfl ho rfl rfl rc hput p l rest _ hpl h4.1 h4.2 n k o hk
    · rw [hc] at hf; cases hf

theorem data {es : Entries} (h : DataMap world T scope es) {q : Str} {v : Value} (hg : Entries.getS es q = some v) :
    Clean T v ∨ (q = "x".toList ∧ v = .str ref) ∨ v = .str text := by
  cases h with
  | yaml h =>
    have hm := getS_mem hg
    simp only [world, two, mk] at h
    split at h
    · injection h with h
      injection h with h
      subst h
      left
      simp only [List.mem_cons, Prod.mk.injEq, List.mem_nil_iff, or_false] at hm
      rcases hm with ⟨-, rfl⟩ | ⟨-, rfl⟩
      · exact clean_int
      · simp only [clean_arr, entry, clean_map, List.forall_mem_cons, s, clean_str, List.not_mem_nil, false_imp_iff, implies_true]
        decide
    · simp only [assoc] at h
      split at h
      · rename_i h'
        split at h'
        · injection h with h
          subst h
          simp only [Option.some.injEq, Value.map.injEq] at h'
          subst h'
          simp only [hash, List.mem_cons, Prod.mk.injEq, List.mem_nil_iff, or_false, s, Value.str.injEq] at hm
          rcases hm with ⟨h1, rfl⟩ | ⟨-, rfl⟩
          · exact .inr (.inl ⟨h1, rfl⟩)
          · exact .inr (.inr rfl)
        · split at h'
          · injection h with h
            subst h
            simp only [Option.some.injEq, Value.map.injEq] at h'
            subst h'
            cases hm
          · cases h'
      · cases h
  | json h => cases h
  | hash h => obtain ⟨n, h | ⟨p, h⟩⟩ := h <;> cases h
  | cached h => rcases h with ⟨n, h | ⟨p, h⟩⟩ | h | ⟨fs, h, _⟩ <;> cases h

theorem source {r : Str} {v : Value} (h : Source world T scope r v) :
    ∀ x, Occurs v x → T x ∨ (AskedAs r "x".toList ∧ x = ref) ∨ x = text := by
  induction h with
  | @data r q es v hq h hg =>
    intro x hx
    rcases data h hg with h | ⟨rfl, rfl⟩ | rfl
    · exact .inl (h x hx)
    · cases hx
      exact .inr (.inl ⟨hq, rfl⟩)
    · cases hx
      exact .inr (.inr rfl)
  | @env r q v hq h =>
    intro x hx
    unfold envLookup at h
    split at h
    · cases h
      cases hx with
      | key h => cases h
      | val h => cases h
    · split at h <;> cases h
  | scope hq h => cases h
  | custom hq h => rcases h with ⟨n, h | ⟨p, h⟩⟩ | h | ⟨fs, h, _⟩ <;> cases h
  | dig _ h => obtain ⟨n, h | ⟨p, h⟩⟩ := h <;> cases h
  | options _ ih =>
    intro x hx
    rcases ih x hx with h | ⟨h, _⟩ | h
    · exact .inl h
    · rcases h with h | ⟨k, h1, h2⟩
      · exact absurd h (by decide)
      · have : newKey "lookup_options".toList = .ok ⟨"lookup_options".toList, [.name "lookup_options".toList]⟩ := by decide +kernel
        rw [this] at h1
        cases h1
        exact absurd h2 (by decide)
    · exact .inr (.inr h)
  | @conv r t x as y w h1 _ h3 ih =>
    intro s hs
    by_cases hT : T s
    · exact .inl hT
    · cases h3
      exact ih x (List.mem_cons_self ..) s hs hT s (h1 x (List.mem_cons_self ..) s hs hT)

theorem text_refers {i : Referent} {ts : List Tok} {e x : Str} (hts : Splits text ts) (he : Tok.expr e ∈ ts) (hx : Trimmed e x)
    (h : ExprRefers x i) : False := by
  rw [splits_unique hts text_splits] at he
  have ht := trimmed_unique hx
  rcases List.mem_cons.1 he with he | he
  swap
  · simp at he
  cases he
  have hm : methodMatch (trimSpace "literal('%')".toList) = some ("literal".toList, "%".toList) := by decide +kernel
  rw [ht] at hm
  cases h with
  | key hc hn _ =>
    rw [(methodMatch_iff _ _ _).2 hc] at hm
    cases hm
    revert hn
    decide
  | scope hc _ =>
    rw [(methodMatch_iff _ _ _).2 hc] at hm
    have hn : "scope".toList = "literal".toList := congrArg Prod.fst (Option.some.inj hm)
    exact absurd hn (by decide)
  | var hc _ => exact absurd ((methodMatch_iff _ _ _).1 hm) (hc _ _)

theorem ref_refers {i : Referent} {ts : List Tok} {e x : Str} (hts : Splits ref ts) (he : Tok.expr e ∈ ts) (hx : Trimmed e x)
    (h : ExprRefers x i) : i = .key "y".toList := by
  rw [splits_unique hts ref_splits] at he
  have ht := trimmed_unique hx
  simp only [List.mem_cons, Tok.expr.injEq, List.mem_nil_iff, or_false] at he
  subst he
  have hm : methodMatch (trimSpace "lookup('y')".toList) = some ("lookup".toList, "y".toList) := by decide +kernel
  have hk : newKey "y".toList = .ok ⟨"y".toList, [.name "y".toList]⟩ := by decide +kernel
  rw [ht] at hm
  cases h with
  | key hc _ hn =>
    rw [(methodMatch_iff _ _ _).2 hc] at hm
    cases hm
    rw [hk] at hn
    cases hn
    rfl
  | scope hc _ =>
    rw [(methodMatch_iff _ _ _).2 hc] at hm
    have hn : "scope".toList = "lookup".toList := congrArg Prod.fst (Option.some.inj hm)
    exact absurd hn (by decide)
  | var hc _ => exact absurd ((methodMatch_iff _ _ _).1 hm) (hc _ _)

open Acyclic59 (rank)

theorem needs {i j : Referent} (h : Needs world T scope i j) :
    rank j < rank i ∧ j ∈ [Referent.key "y".toList, .key "lookup_options".toList] := by
  cases h with
  | @ref r v j h hr =>
    obtain ⟨x, ts, e, y, hx, hts, he, hy, hj⟩ := hr
    rcases source h x hx with hT | ⟨hq, rfl⟩ | rfl
    · exact (no_refs hT hts he).elim
    · have hrank : rank (.key r) = 2 := by
        have : r ≠ "lookup_options".toList ∧ r ≠ "y".toList := by
          have h1 : newKey "lookup_options".toList = .ok ⟨"lookup_options".toList, [.name "lookup_options".toList]⟩ := by decide +kernel
          have h2 : newKey "y".toList = .ok ⟨"y".toList, [.name "y".toList]⟩ := by decide +kernel
          constructor
          · rintro rfl
            rcases hq with h | ⟨k, hk, h⟩
            · exact absurd h (by decide)
            · rw [h1] at hk; cases hk; exact absurd h (by decide)
          · rintro rfl
            rcases hq with h | ⟨k, hk, h⟩
            · exact absurd h (by decide)
            · rw [h2] at hk; cases hk; exact absurd h (by decide)
        simp only [rank, this.1, this.2, if_false]
      rw [hrank]
      rw [ref_refers hts he hy hj]
      exact ⟨by decide, by simp⟩
    · exact (text_refers hts he hy hj).elim
  | fn _ h => rcases h with ⟨n, h | ⟨p, h⟩⟩ | h | ⟨fs, h, _⟩ <;> cases h
  | @options r hr =>
    refine ⟨?_, by simp⟩
    simp only [rank, if_neg hr, if_true]
    split <;> decide
  | var h hr => cases h

theorem acyclic : Acyclic world T scope where
  irrefl := by
    have : ∀ i j, Relation.TransGen (Needs world T scope) i j → rank j < rank i := by
      intro i j h
      induction h with
      | single h => exact (needs h).1
      | tail _ h ih => exact Nat.lt_trans (needs h).1 ih
    exact fun i h => Nat.lt_irrefl _ (this i i h)
  finite := ⟨_, fun i j h => (needs h).2⟩

end Untidy59

/-- C59 is false of data whose text becomes an expression by interpolation: no value refers to itself, not even indirectly,
and yet a lookup from a fresh invocation never ends. -/
theorem C59_false : ∃ (E : Env) (T : Str → Prop) (k : String), Inert T ∧ Acyclic E T (.map []) ∧ ∀ n, ask E n k = none :=
  ⟨Untidy59.world, Acyclic59.T, "x", Acyclic59.inert, Untidy59.acyclic, Untidy59.endless_top⟩

end Hiera
