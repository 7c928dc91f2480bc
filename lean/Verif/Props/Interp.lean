/-
  Properties C15–C22: interpolation (`session/interpolate.go`).

  All statements are about the evaluator with any amount `n` of fuel; `(eval E n).lookup` is `Invocation.Lookup`.
-/
import Verif.Lemmas.InterpCalls
import Verif.Lemmas.Map
import Verif.Lemmas.World

set_option linter.unusedSimpArgs false

set_option autoImplicit false

namespace Hiera
open Spec World

/-! ### C15 -/

/-- C15: interpolating a value without markers returns it and does nothing else: no lookup, no change of any state,
whatever the recursive calls would do. -/
theorem C15_plain (E : Env) (rec : Rec) (allow : Bool) (v : Value) (h : Plain v) (st : St) :
    interpolate E rec allow v st = some (.ok (some v), st) := by
  rw [interpolate_plain E rec allow h]; rfl

example : Plain (.map [(s "a%b{}", .arr [s "100%", .int 3, s "{x}"])]) :=
  .map (.cons (.str (by rw [← hasMarker_iff]; decide)) (.arr (.cons (.str (by rw [← hasMarker_iff]; decide))
    (.cons .int (.cons (.str (by rw [← hasMarker_iff]; decide)) .nil)))) .nil)
example : ¬Plain (s "%{x}") := by
  intro h
  cases h with
  | str h => exact h ⟨[], "x}".toList, by decide⟩

/-! ### C16 -/

/-- Every string divides in exactly one way into text and expressions. -/
theorem C16_division (s : Str) : ∃ ts, Splits s ts ∧ ∀ ts', Splits s ts' → ts' = ts :=
  ⟨tokens s, tokens_splits s, fun _ h => splits_unique h (tokens_splits s)⟩

/-- C16: interpolating a string (without alias) is interpolating its expressions on their own, one after the other, and
keeping all other text. -/
theorem C16_text (E : Env) (n : Nat) (allow : Bool) (s : Str) (ts : List Tok) (hs : Splits s ts)
    (hts : ∀ e, Tok.expr e ∈ ts → ¬AliasCall e) (st : St) (ho : st.on = none) :
    interpolate E (eval E n) allow (.str s) st = (do
      let t ← pieces (fun s => interpolate E (eval E n) allow (.str s)) E.textOf ts
      pure (some (.str t)) : M (Option Value)) st := by
  rw [interpolate_str E _ allow hs hts ho]
  have hc : ∀ e, Tok.expr e ∈ ts → '}' ∉ e := fun e he => splits_mem_close hs he
  clear hs
  have key : ∀ st : St, st.on = none →
      outs E (eval E n) allow ts st = pieces (fun s => interpolate E (eval E n) allow (.str s)) E.textOf ts st := by
    induction ts with
    | nil => intro st _; rfl
    | cons t ts ih =>
      intro st ho
      have ih' := ih (fun e h => hts e (List.mem_cons_of_mem _ h)) (fun e h => hc e (List.mem_cons_of_mem _ h))
      cases t with
      | chr c => rw [outs, pieces, bind_def, bind_def, ih' st ho]
      | expr e =>
        have h1 := interpolate_single E (eval E n) allow (hc e (by simp)) (hts e (by simp)) ho
        have hq : Quiet (interpolate E (eval E n) allow (.str ('%' :: '{' :: e ++ ['}']))) := by
          cases allow with
          | true => exact (QuietRel.closed E).interpolate (QuietRel.eval E n) _
          | false => exact (QuietRel.closed E).resolving.interpolateFalse (QuietRel.eval E n).interpC _
        rw [outs, pieces, bind_def, bind_def, lit_single]
        have hq' := fun r t => hq st r t ho
        rw [h1] at hq' ⊢
        rw [bind_def] at hq' ⊢
        cases hx : exprOut E (eval E n) allow e st with
        | none => rfl
        | some o =>
          rcases o with ⟨_ | _, u⟩ <;> rw [hx] at hq'
          · have ho' := (hq' _ _ rfl).1
            simp only [pure_def]
            rw [bind_def, bind_def, ih' u ho']
            rfl
  rw [bind_def, bind_def, key st ho]

/-- The text of an expression that calls `lookup` or `hiera` is that of the value that is looked up. -/
theorem C16_lookup (E : Env) (n : Nat) (e x name arg : Str) (hc : '}' ∉ e) (hx : Trimmed e x) (hcall : Call x name arg)
    (hn : name = "lookup".toList ∨ name = "hiera".toList) (st : St) (ho : st.on = none) :
    interpolate E (eval E n) true (.str ("%{".toList ++ e ++ "}".toList)) st = (do
      let k ← lift (newKey arg)
      let v ← (eval E n).lookup k []
      pure (some (.str (E.textOf v))) : M (Option Value)) st := by
  have hm := (methodMatch_iff _ _ _).2 hcall
  have hg : getMethodAndData x true = .ok (.lookup, arg) := by
    unfold getMethodAndData
    rw [hm]
    rcases hn with rfl | rfl <;> rfl
  have hna : ¬AliasCall e := by
    rintro ⟨x', n', a', hx', hc', hn'⟩
    rw [← trimmed_unique hx', trimmed_unique hx] at hc'
    obtain ⟨rfl, rfl⟩ := call_unique hc' hcall
    rcases hn with rfl | rfl <;> rcases hn' with h | h <;> exact absurd h (by decide)
  have hne : emptyInterpolation x = false := by
    cases h : emptyInterpolation x with
    | false => rfl
    | true =>
      exfalso
      simp only [emptyInterpolation, Bool.or_eq_true, beq_iff_eq] at h
      rcases h with ((((h | h) | h) | h) | h) | h <;> subst h <;> cases hm
  have h1 := interpolate_single E (eval E n) true hc hna ho
  rw [lit_single]
  rw [h1]
  unfold exprOut
  rw [trimmed_unique hx, hne, hg]
  simp only [Bool.false_eq_true, if_false, M.lift_ok_bind, M.bind_assoc, M.pure_bind]

/-! ### C17 -/

/-- C17: an empty interpolation is replaced by nothing, and nothing is looked up or changed. -/
theorem C17_empty (E : Env) (rec : Rec) (allow : Bool) (e x : Str) (hc : '}' ∉ e) (hx : Trimmed e x)
    (h : x ∈ ["".toList, "::".toList, "\"\"".toList, "''".toList, "\"::\"".toList, "'::'".toList]) (st : St)
    (ho : st.on = none) :
    interpolate E rec allow (.str ("%{".toList ++ e ++ "}".toList)) st = some (.ok (some (.str [])), st) := by
  have hempty : emptyInterpolation x = true := by
    simp only [List.mem_cons, List.not_mem_nil, or_false] at h
    rcases h with h | h | h | h | h | h <;> subst h <;> decide
  have hmm : methodMatch x = none := by
    simp only [List.mem_cons, List.not_mem_nil, or_false] at h
    rcases h with h | h | h | h | h | h <;> subst h <;> decide
  have hna : ¬AliasCall e := by
    rintro ⟨x', n', a', hx', hc', hn'⟩
    rw [← trimmed_unique hx', trimmed_unique hx, ← methodMatch_iff, hmm] at hc'
    cases hc'
  have h1 := interpolate_single E rec allow hc hna ho
  rw [lit_single]
  rw [h1]
  unfold exprOut
  rw [trimmed_unique hx, hempty]
  rfl

/-- C17 within other text. -/
theorem C17_within (E : Env) (n : Nat) (allow : Bool) (a b e x : Str) (hc : '}' ∉ e) (hx : Trimmed e x)
    (h : x ∈ ["".toList, "::".toList, "\"\"".toList, "''".toList, "\"::\"".toList, "'::'".toList])
    (ha : ¬Marked a) (hlast : a.getLast? ≠ some '%') (hb : ¬Marked b) (st : St) (ho : st.on = none) :
    interpolate E (eval E n) allow (.str (a ++ "%{".toList ++ e ++ "}".toList ++ b)) st =
      some (.ok (some (.str (a ++ b))), st) := by
  have hmm : methodMatch x = none := by
    simp only [List.mem_cons, List.not_mem_nil, or_false] at h
    rcases h with h | h | h | h | h | h <;> subst h <;> decide
  have hna : ¬AliasCall e := by
    rintro ⟨x', n', a', hx', hc', hn'⟩
    rw [← trimmed_unique hx', trimmed_unique hx, ← methodMatch_iff, hmm] at hc'
    cases hc'
  have hs : Splits (a ++ "%{".toList ++ e ++ "}".toList ++ b) (a.map .chr ++ .expr e :: b.map .chr) := by
    have hb' : Splits ('%' :: '{' :: e ++ '}' :: b) (.expr e :: b.map .chr) := .expr hc (splits_unmarked hb)
    have : a ++ "%{".toList ++ e ++ "}".toList ++ b = a ++ ('%' :: '{' :: e ++ '}' :: b) := by
      have h1 : "%{".toList = ['%', '{'] := by decide
      have h2 : "}".toList = ['}'] := by decide
      rw [h1, h2]
      simp
    rw [this]
    clear this
    induction a with
    | nil => exact hb'
    | cons c cs ih =>
      have ih' := ih (fun ⟨u, w, hm⟩ => ha ⟨c :: u, w, by simp [hm]⟩)
      cases cs with
      | nil =>
        refine .chr ?_ (ih' (by simp))
        exact not_startsExpr (by rintro ⟨_, h⟩; cases h)
      | cons d ds =>
        refine .chr ?_ (ih' (by simpa using hlast))
        refine not_startsExpr ?_
        rintro ⟨rfl, rfl⟩
        exact ha ⟨[], ds, rfl⟩
  have hts : ∀ e', Tok.expr e' ∈ a.map Tok.chr ++ .expr e :: b.map .chr → ¬AliasCall e' := by
    intro e' he'
    simp at he'
    subst he'
    exact hna
  rw [interpolate_str E _ allow hs hts ho]
  have hempty : emptyInterpolation x = true := by
    simp only [List.mem_cons, List.not_mem_nil, or_false] at h
    rcases h with h | h | h | h | h | h <;> subst h <;> decide
  have hx' : exprOut E (eval E n) allow e = pure [] := by
    unfold exprOut; rw [trimmed_unique hx, hempty]; rfl
  have hout : ∀ (s : Str) ts r, outs E (eval E n) allow ts = pure r →
      outs E (eval E n) allow (s.map .chr ++ ts) = pure (s ++ r) := by
    intro s
    induction s with
    | nil => intro ts r hr; exact hr
    | cons c cs ih => intro ts r hr; rw [List.map_cons, List.cons_append, outs, ih ts r hr, M.pure_bind]; rfl
  have hb2 := hout b [] [] rfl
  rw [List.append_nil, List.append_nil] at hb2
  rw [hout a (.expr e :: b.map .chr) b (by rw [outs, hx', M.pure_bind, hb2, M.pure_bind]; rfl)]
  rfl

example : Trimmed " :: ".toList "::".toList :=
  ⟨⟨" ".toList, " ".toList, by decide, by decide, by decide⟩, by decide, by decide⟩

/-! ### C18 -/

/-- C18, for one interpolation: `literal` yields its argument. Looked up values are interpolated more than once, see
`C18_false`. -/
theorem C18_literal_partial (E : Env) (n : Nat) (e x arg : Str) (hc : '}' ∉ e) (hx : Trimmed e x)
    (hcall : Call x "literal".toList arg) (st : St) (ho : st.on = none) :
    interpolate E (eval E n) true (.str ("%{".toList ++ e ++ "}".toList)) st = some (.ok (some (.str arg)), st) := by
  have hm := (methodMatch_iff _ _ _).2 hcall
  have hg : getMethodAndData x true = .ok (.literal, arg) := by
    unfold getMethodAndData; rw [hm]; rfl
  have hna : ¬AliasCall e := by
    rintro ⟨x', n', a', hx', hc', hn'⟩
    rw [← trimmed_unique hx', trimmed_unique hx] at hc'
    obtain ⟨rfl, rfl⟩ := call_unique hc' hcall
    rcases hn' with h | h <;> exact absurd h (by decide)
  have hne : emptyInterpolation x = false := by
    cases h : emptyInterpolation x with
    | false => rfl
    | true =>
      exfalso
      simp only [emptyInterpolation, Bool.or_eq_true, beq_iff_eq] at h
      rcases h with ((((h | h) | h) | h) | h) | h <;> subst h <;> cases hm
  have h1 := interpolate_single E (eval E n) true hc hna ho
  rw [lit_single]
  rw [h1]
  unfold exprOut
  rw [trimmed_unique hx, hne, hg]
  rfl

/-- A file in which a literal percent sign is followed by a brace. -/
def literalWorld : Env := two [(s "x", s "%{literal('%')}{y}")] []

/-- C18 is false of lookups: values from data files are interpolated when read and again by `Invocation.Lookup`, so that
the documented escape for `%{` does not work. -/
theorem C18_false : ask literalWorld 10 "x" [(s "y", s "oops")] = some (.ok (some (s "oops"))) := by decide +kernel

example : Call "literal('%')".toList "literal".toList "%".toList :=
  ⟨by decide, by decide, by decide, '\'', .inl rfl, by decide, by decide⟩

/-! ### C19 -/

/-- C19: a string that is an alias expression and nothing else becomes the value that is looked up, of whatever type; if
there is none it becomes the empty string (`alias`), or there is none (`strict_alias`). -/
theorem C19_alias (E : Env) (n : Nat) (e x name arg : Str) (hc : '}' ∉ e) (hx : Trimmed e x) (hcall : Call x name arg)
    (hn : name = "alias".toList ∨ name = "strict_alias".toList) (st : St) (ho : st.on = none) :
    interpolate E (eval E n) true (.str ("%{".toList ++ e ++ "}".toList)) st = (do
      let k ← lift (newKey arg)
      let v ← (eval E n).lookup k []
      pure (if name = "alias".toList then some (v.getD (.str [])) else v) : M (Option Value)) st := by
  have hm := (methodMatch_iff _ _ _).2 hcall
  have hne : emptyInterpolation x = false := by
    cases h : emptyInterpolation x with
    | false => rfl
    | true =>
      exfalso
      simp only [emptyInterpolation, Bool.or_eq_true, beq_iff_eq] at h
      rcases h with ((((h | h) | h) | h) | h) | h <;> subst h <;> cases hm
  have hmark : hasMarker ('%' :: '{' :: e ++ ['}']) = true := by simp [hasMarker]
  rw [lit_single]
  unfold interpolate interp interpStr
  rw [hmark]
  simp only [if_true, M.bind_assoc, M.pure_bind]
  rw [M.bind_pure, Quiet.off_withNode ho, tokens_eq (splits_single hc)]
  simp only [interpToks]
  unfold interpExpr
  rw [trimmed_unique hx]
  simp only [hne, Bool.false_eq_true, if_false]
  rcases hn with rfl | rfl
  · have hg : getMethodAndData x true = .ok (.alias, arg) := by unfold getMethodAndData; rw [hm]; rfl
    rw [hg]
    simp only [M.lift_ok_bind, Method.isAlias, true_and, ne_eq, not_true_eq_false, if_false, if_true, M.bind_assoc,
      M.pure_bind]
    refine congrFun (congrArg _ (funext fun k => congrArg _ (funext fun v => ?_))) st
    cases v <;> rfl
  · have hg : getMethodAndData x true = .ok (.strictAlias, arg) := by unfold getMethodAndData; rw [hm]; rfl
    rw [hg]
    have hneq : ¬("strict_alias".toList = "alias".toList) := by decide
    simp only [M.lift_ok_bind, Method.isAlias, true_and, ne_eq, not_true_eq_false, if_false, if_true, M.bind_assoc,
      M.pure_bind, hneq]
    refine congrFun (congrArg _ (funext fun k => congrArg _ (funext fun v => ?_))) st
    cases v <;> rfl

/-- C19: a string with an alias expression and anything else besides never interpolates to a value. -/
theorem C19_alone (E : Env) (rec : Rec) (allow : Bool) (s : Str) (ts : List Tok) (hs : Splits s ts) (e : Str)
    (he : Tok.expr e ∈ ts) (ha : AliasCall e) (hne : s ≠ "%{".toList ++ e ++ "}".toList) :
    NeverOk (interpolate E rec allow (.str s)) := by
  unfold interpolate interp
  refine NeverOk.left _ (NeverOk.interpStr hs (fun st => ?_) he)
  obtain ⟨x, name, arg, hx, hcall, hn⟩ := ha
  have hm := (methodMatch_iff _ _ _).2 hcall
  have hemp : emptyInterpolation x = false := by
    cases h : emptyInterpolation x with
    | false => rfl
    | true =>
      exfalso
      simp only [emptyInterpolation, Bool.or_eq_true, beq_iff_eq] at h
      rcases h with ((((h | h) | h) | h) | h) | h <;> subst h <;> cases hm
  unfold interpExpr
  rw [trimmed_unique hx]
  simp only [hemp, Bool.false_eq_true, if_false]
  have hne' : '%' :: '{' :: e ++ ['}'] ≠ s := fun h => hne h.symm
  cases allow with
  | false =>
    have hg : getMethodAndData x false = .panic .methodsNotAllowed := by unfold getMethodAndData; rw [hm]; rfl
    rw [hg]
    exact NeverOk.panic _
  | true =>
    rcases hn with rfl | rfl
    · have hg : getMethodAndData x true = .ok (.alias, arg) := by unfold getMethodAndData; rw [hm]; rfl
      rw [hg]
      simp only [M.lift_ok_bind, Method.isAlias, true_and]
      rw [if_pos hne']
      exact NeverOk.panic _
    · have hg : getMethodAndData x true = .ok (.strictAlias, arg) := by unfold getMethodAndData; rw [hm]; rfl
      rw [hg]
      simp only [M.lift_ok_bind, Method.isAlias, true_and]
      rw [if_pos hne']
      exact NeverOk.panic _

example : AliasCall " alias(\"k\") ".toList :=
  ⟨"alias(\"k\")".toList, "alias".toList, "k".toList,
    ⟨⟨" ".toList, " ".toList, by decide, by decide, by decide⟩, by decide, by decide⟩,
    ⟨by decide, by decide, by decide, '"', .inr rfl, by decide, by decide⟩, .inl rfl⟩
example : ask (two [(s "x", s "%{alias('z')}")] [(s "z", .arr [.int 1])]) 10 "x" = some (.ok (some (.arr [.int 1]))) := by
  decide +kernel
example : ask (two [(s "x", s "%{strict_alias('q')}")] [(s "x", .int 1)]) 10 "x" = some (.ok (some (.int 1))) := by
  decide +kernel

/-! ### C20 -/

/-- C20: where function calls are not allowed, a value with a function call is not interpolated. -/
theorem C20_value (E : Env) (rec : Rec) (v : Value) (h : HasCallV v) : NeverOk (interpolate E rec false v) := by
  suffices hi : NeverOk (interp E rec false v) from NeverOk.left _ hi
  induction h with
  | str h => rw [interp]; exact neverOk_str E rec h
  | arr _ hm ih => rw [interp]; exact NeverOk.left _ (neverOk_list E rec ih hm)
  | key _ hm ih => rw [interp]; exact NeverOk.left _ (neverOk_map E rec (.inl ih) hm _)
  | val _ hm ih => rw [interp]; exact NeverOk.left _ (neverOk_map E rec (.inr ih) hm _)

/-- C20 for hierarchy entries: an entry with a function call in the name of its function, its data directory, plugin
directory, options, or a path, glob or URI is never resolved. -/
theorem C20_entry (E : Env) (rec : Rec) (d : Option Entry) (e : Entry) (h : HasCallE e) : NeverOk (e.resolve E rec d) := by
  unfold Entry.resolve
  cases h with
  | function hf h =>
    refine NeverOk.left _ ?_
    unfold resolveFunction
    rw [hf]
    exact NeverOk.left _ (neverOk_cfg E rec h)
  | dataDir h =>
    refine NeverOk.after (resolveFunction_returns E rec d e) ?_
    rintro _ ⟨f, rfl⟩
    refine NeverOk.left _ ?_
    unfold resolveDataDir
    refine NeverOk.after (resolveFunction_returns E rec d _) ?_
    rintro _ ⟨f, rfl⟩
    simp only
    rw [if_neg (hasCall_ne_nil h)]
    exact NeverOk.left _ (neverOk_cfg E rec h)
  | pluginDir h =>
    refine NeverOk.after (resolveFunction_returns E rec d e) ?_
    rintro _ ⟨f, rfl⟩
    refine NeverOk.after (resolveDataDir_returns E rec d _) ?_
    rintro _ ⟨f, dd, rfl⟩
    refine NeverOk.left _ ?_
    unfold resolvePluginDir pluginDirOf
    simp only
    rw [if_neg (hasCall_ne_nil h)]
    exact NeverOk.left _ (neverOk_cfg E rec h)
  | options ho h =>
    refine NeverOk.after (resolveFunction_returns E rec d e) ?_
    rintro _ ⟨f, rfl⟩
    refine NeverOk.after (resolveDataDir_returns E rec d _) ?_
    rintro _ ⟨f, dd, rfl⟩
    refine NeverOk.after (resolvePluginDir_returns E rec d _) ?_
    rintro _ ⟨pd, rfl⟩
    refine NeverOk.left _ ?_
    unfold resolveOptions
    simp only [ho]
    split
    · rename_i heq; cases heq
    · rename_i heq; cases heq; cases h <;> rename_i hm <;> cases hm
    · rename_i heq; cases heq; exact NeverOk.left _ (C20_value E rec _ h)
  | location hl hm h =>
    refine NeverOk.after (resolveFunction_returns E rec d e) ?_
    rintro _ ⟨f, rfl⟩
    refine NeverOk.after (resolveDataDir_returns E rec d _) ?_
    rintro _ ⟨f, dd, rfl⟩
    refine NeverOk.after (resolvePluginDir_returns E rec d _) ?_
    rintro _ ⟨pd, rfl⟩
    refine NeverOk.after (resolveOptions_returns E rec d _) ?_
    rintro _ ⟨os, rfl⟩
    unfold resolveLocations
    simp only [hl]
    exact NeverOk.left _ (neverOk_locs E rec _ h hm)

/-- C20 for configurations: a configuration with a function call in its defaults or in any entry of its hierarchy or
default hierarchy is never resolved. -/
theorem C20_config (E : Env) (rec : Rec) (c : Cfg) (m : Str)
    (h : ∃ e, (e = c.defaults ∨ e ∈ c.hierarchy ∨ e ∈ c.defaultHierarchy) ∧ HasCallE e) : NeverOk (resolve E rec c m) := by
  obtain ⟨e, he, h⟩ := h
  have loop : ∀ (d : Entry) (es : List Entry), e ∈ es → NeverOk (createProvidersLoop E rec d es) := by
    intro d es hm
    induction es with
    | nil => cases hm
    | cons a as ih =>
      rw [createProvidersLoop]
      rcases List.mem_cons.1 hm with rfl | hm
      · exact NeverOk.left _ (C20_entry E rec _ _ h)
      · exact NeverOk.right _ (fun _ => NeverOk.right _ (fun _ => NeverOk.left _ (ih hm)))
  have fc : ∀ {α : Type} {m : M α}, NeverOk m → NeverOk (forConfig m) := by
    intro α m hm s a t hs
    unfold forConfig at hs
    split at hs
    · exact hm _ _ _ hs
    · unfold withCopy at hs
      split at hs
      · cases hs
      · rename_i r u hr
        cases hs
        exact hm _ _ _ hr
  unfold resolve
  refine NeverOk.left _ (fc ?_)
  rcases he with rfl | he | he
  · exact NeverOk.left _ (NeverOk.left _ (C20_entry E rec _ _ h))
  · exact NeverOk.left _ (NeverOk.right _ (fun d => loop d _ he))
  · exact NeverOk.right _ (fun _ => NeverOk.left _ (NeverOk.right _ (fun d => loop d _ he)))

/-- C20: nothing is ever looked up to resolve a configuration. It makes no difference what `Lookup` would do, even if
variables of the scope contain expressions themselves. -/
theorem C20_no_lookup (E : Env) (n : Nat) (p : Key → Entries → M (Option Value)) (c : Cfg) (es : List Entry) :
    createProviders E (eval E n) c es = createProviders E (withLookup E p n) c es :=
  (anyEq.closed E).resolving.createProviders (withLookup_rel E p n).interpC c es

example : HasCall "data/%{lookup('x')}.yaml".toList :=
  ⟨tokens "data/%{lookup('x')}.yaml".toList, "lookup('x')".toList, "lookup('x')".toList, "lookup".toList, "x".toList,
    tokens_splits _, by decide, ⟨⟨[], [], by decide, by simp, by simp⟩, by decide, by decide⟩,
    ⟨by decide, by decide, by decide, '\'', .inl rfl, by decide, by decide⟩⟩
example : ask (mk (cfg [entry "a" "%{lookup('x')}.yaml"]) []) 10 "x" = some (.panic .methodsNotAllowed) := by decide +kernel

/-! ### C21 -/

/-- C21: a variable that is not in the scope is replaced by nothing, and nothing else happens. -/
theorem C21_unknown (E : Env) (n : Nat) (allow : Bool) (e x : Str) (k : Key) (hc : '}' ∉ e) (hx : Trimmed e x)
    (hcall : ∀ name arg, ¬Call x name arg) (hk : newKey x = .ok k) (st : St) (ho : st.on = none)
    (hg : st.v.ic.scope.get k.root = none) :
    interpolate E (eval E n) allow (.str ("%{".toList ++ e ++ "}".toList)) st = some (.ok (some (.str [])), st) := by
  have hna : ¬AliasCall e := by
    rintro ⟨x', n', a', hx', hc', hn'⟩
    rw [← trimmed_unique hx', trimmed_unique hx] at hc'
    exact hcall _ _ hc'
  have hm : methodMatch x = none := by
    cases h : methodMatch x with
    | none => rfl
    | some p => exact absurd ((methodMatch_iff _ _ _).1 h) (hcall _ _)
  rw [lit_single, interpolate_single E (eval E n) allow hc hna ho]
  unfold exprOut
  rw [trimmed_unique hx]
  by_cases he : emptyInterpolation x = true
  · rw [he]; rfl
  · have hmd : getMethodAndData x allow = .ok (.scope, x) := by unfold getMethodAndData; rw [hm]
    simp only [he, hmd, M.lift_ok_bind, interpInScope, hk, if_false, Bool.false_eq_true, reduceCtorEq]
    rw [bind_def, bind_def, bind_def]
    unfold view
    simp only [hg]
    rfl

/-- C21: a variable whose value is plain is replaced by the text of what the rest of the key finds in it, and by nothing
if that finds nothing. -/
theorem C21_known (E : Env) (n : Nat) (allow : Bool) (e x : Str) (k : Key) (v : Value) (hc : '}' ∉ e) (hx : Trimmed e x)
    (hcall : ∀ name arg, ¬Call x name arg) (hne : x ∉ ["".toList, "::".toList, "\"\"".toList, "''".toList,
      "\"::\"".toList, "'::'".toList]) (hk : newKey x = .ok k) (st : St) (ho : st.on = none)
    (hg : st.v.ic.scope.get k.root = some v) (hv : Plain v) :
    interpolate E (eval E (n + 1)) allow (.str ("%{".toList ++ e ++ "}".toList)) st =
      some (.ok (some (.str (E.textOf (k.digPure v)))), st) := by
  have hna : ¬AliasCall e := by
    rintro ⟨x', n', a', hx', hc', hn'⟩
    rw [← trimmed_unique hx', trimmed_unique hx] at hc'
    exact hcall _ _ hc'
  have hm : methodMatch x = none := by
    cases h : methodMatch x with
    | none => rfl
    | some p => exact absurd ((methodMatch_iff _ _ _).1 h) (hcall _ _)
  rw [lit_single, interpolate_single E (eval E (n + 1)) allow hc hna ho]
  unfold exprOut
  rw [trimmed_unique hx]
  have he : emptyInterpolation x = false := by
    cases h : emptyInterpolation x with
    | false => rfl
    | true =>
      exfalso
      simp only [emptyInterpolation, Bool.or_eq_true, beq_iff_eq] at h
      rcases h with ((((h | h) | h) | h) | h) | h <;> subst h <;> exact hne (by decide)
  have hmd : getMethodAndData x allow = .ok (.scope, x) := by unfold getMethodAndData; rw [hm]
  have hint : (eval E (n + 1)).interp v allow = pure (some v, false) := interp_plain E _ allow hv
  simp only [he, hmd, M.lift_ok_bind, interpInScope, hk, if_false, Bool.false_eq_true, reduceCtorEq]
  rw [bind_def, bind_def, bind_def]
  unfold view
  simp only [hg]
  rw [hint, M.pure_bind, dig_quiet k v st ho]
  rfl

/-- C21: the value of a variable is itself interpolated, and then the rest of the key is followed in it; what is missing
is replaced by nothing. -/
theorem C21_nested (E : Env) (n : Nat) (allow : Bool) (e x : Str) (k : Key) (v : Value) (hc : '}' ∉ e) (hx : Trimmed e x)
    (hcall : ∀ name arg, ¬Call x name arg) (hne : x ∉ ["".toList, "::".toList, "\"\"".toList, "''".toList,
      "\"::\"".toList, "'::'".toList]) (hk : newKey x = .ok k) (st : St) (ho : st.on = none)
    (hg : st.v.ic.scope.get k.root = some v) :
    interpolate E (eval E (n + 1)) allow (.str ("%{".toList ++ e ++ "}".toList)) st = (do
      let w ← interpolate E (eval E n) allow v
      pure (some (.str (E.textOf (w.bind k.digPure)))) : M (Option Value)) st := by
  have hna : ¬AliasCall e := by
    rintro ⟨x', n', a', hx', hc', hn'⟩
    rw [← trimmed_unique hx', trimmed_unique hx] at hc'
    exact hcall _ _ hc'
  have hm : methodMatch x = none := by
    cases h : methodMatch x with
    | none => rfl
    | some p => exact absurd ((methodMatch_iff _ _ _).1 h) (hcall _ _)
  rw [lit_single, interpolate_single E (eval E (n + 1)) allow hc hna ho]
  unfold exprOut
  rw [trimmed_unique hx]
  have he : emptyInterpolation x = false := by
    cases h : emptyInterpolation x with
    | false => rfl
    | true =>
      exfalso
      simp only [emptyInterpolation, Bool.or_eq_true, beq_iff_eq] at h
      rcases h with ((((h | h) | h) | h) | h) | h <;> subst h <;> exact hne (by decide)
  have hmd : getMethodAndData x allow = .ok (.scope, x) := by unfold getMethodAndData; rw [hm]
  have hint : (eval E (n + 1)).interp v allow = interp E (eval E n) allow v := rfl
  simp only [he, hmd, M.lift_ok_bind, interpInScope, hk, if_false, Bool.false_eq_true, reduceCtorEq]
  rw [bind_def, bind_def, bind_def]
  unfold view
  simp only [hg]
  have hq : Quiet (interp E (eval E n) allow v) := by
    cases allow with
    | true => exact (QuietRel.closed E).interp (QuietRel.eval E n) _
    | false => exact (QuietRel.closed E).resolving.interpFalse (QuietRel.eval E n).interpC _
  rw [hint, interpolate_eq, M.bind_assoc, bind_def, bind_def]
  cases hi : interp E (eval E n) allow v st with
  | none => rfl
  | some o =>
    have ho' := (hq st _ _ ho hi).1
    rcases o with ⟨⟨r, b⟩ | _, u⟩
    · simp only at ho' ⊢
      cases r with
      | none => rw [dig_none k u ho']; rfl
      | some w => rw [dig_quiet k w u ho']; rfl
    · rfl

example : ask (two [(s "x", s "a%{nope}b%{m.k}%{m.q}c")] []) 10 "x" [(s "m", .map [(s "k", s "K")])] =
    some (.ok (some (s "abKc"))) := by decide +kernel

/-! ### C22 -/

/-- C22: an array becomes the array of its interpolated elements, in order; an element that becomes nothing becomes
nil. -/
theorem C22_array (E : Env) (rec : Rec) (a : Bool) (es : List Value) :
    interpolate E rec a (.arr es) = (do
      let rs ← each (interpolate E rec a) es
      pure (some (.arr (rs.map (·.getD .null))))) :=
  interpolate_arr E rec a es

/-- C22: the array keeps its length. -/
theorem C22_length (E : Env) (rec : Rec) (a : Bool) (es : List Value) (st t : St) (r : Option Value)
    (h : interpolate E rec a (.arr es) st = some (.ok r, t)) : ∃ rs, r = some (.arr rs) ∧ rs.length = es.length := by
  rw [C22_array] at h
  have hl : ∀ es : List Value, Returns (each (interpolate E rec a) es) (fun rs => rs.length = es.length) := by
    intro es
    induction es with
    | nil => exact Returns.pure rfl
    | cons v vs ih =>
      exact Returns.bind (Returns.trivial _) (fun _ _ => Returns.bind ih (fun bs hb => Returns.pure (by simp [hb])))
  exact Returns.bind (Q := fun r => ∃ rs, r = some (Value.arr rs) ∧ rs.length = es.length) (hl es)
    (fun rs hrs => Returns.pure ⟨_, rfl, by simpa using hrs⟩) _ _ _ h

/-- C22: a map becomes the map that has, in order, the interpolated values under the interpolated keys; of keys that
become equal the last value counts. -/
theorem C22_map (E : Env) (rec : Rec) (a : Bool) (es : Entries) (hw : Value.WF (.map es)) :
    interpolate E rec a (.map es) = (do
      let ps ← each (entryOf (interpolate E rec a)) es
      pure (some (.map (Entries.putAll [] ps)))) :=
  interpolate_map E rec a es hw

/-- C22: all other values stay as they are. -/
theorem C22_other (E : Env) (rec : Rec) (a : Bool) (v : Value) (h1 : ∀ s, v ≠ .str s) (h2 : ∀ es, v ≠ .arr es)
    (h3 : ∀ es, v ≠ .map es) : interpolate E rec a v = pure (some v) := by
  cases v with
  | str s => exact absurd rfl (h1 s)
  | arr s => exact absurd rfl (h2 s)
  | map s => exact absurd rfl (h3 s)
  | _ => simp only [interpolate, interp, M.pure_bind]; rfl

example : ask (two [(s "x", .map [(s "%{m.k}", .arr [s "%{nope}", s "v%{m.k}", .int 3])])] []) 10 "x"
    [(s "m", .map [(s "k", s "K")])] = some (.ok (some (.map [(s "K", .arr [s "", s "vK", .int 3])]))) := by
  decide +kernel

end Hiera
