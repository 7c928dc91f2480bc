/- C53, C54, C62: the command line. -/
import Verif.Spec.Cli
import Verif.Lemmas.Map
import Verif.Lemmas.Interp
import Verif.Props.Api
import Verif.Props.Strategy

set_option autoImplicit false

namespace Hiera
open Value Spec World

/-! ### C54 -/

theorem isSep_iff (c : Char) : isSep c = true ↔ IsSep c := by simp [isSep, IsSep]

theorem isSep_false (c : Char) : isSep c = false ↔ ¬IsSep c := by rw [← isSep_iff]; simp

/-- A split right after the first character. -/
theorem lineSep_one (c : Char) (rest : Str) (n v : Str) (hn : n.length = 1) : LineSep (c :: rest) n v ↔
    n = [c] ∧ ∃ sep d tail, rest = sep :: d :: tail ∧ v = d :: tail ∧ IsSep sep ∧ ¬IsSep c ∧ ¬IsSep d ∧ '\n' ∉ tail := by
  constructor
  · rintro ⟨⟨pre, c', sep, d, tail, h1, rfl, rfl, h4, h5, h6⟩, _, h8⟩
    have : pre = [] := List.length_eq_zero_iff.1 (by simpa using hn)
    subst this
    simp only [List.nil_append, List.cons_append, List.cons.injEq] at h1
    obtain ⟨rfl, rfl⟩ := h1
    exact ⟨rfl, sep, d, tail, rfl, rfl, h4, h5, h6, h8⟩
  · rintro ⟨rfl, sep, d, tail, rfl, rfl, h4, h5, h6, h8⟩
    exact ⟨⟨[], c, sep, d, tail, rfl, rfl, rfl, h4, h5, h6⟩, by simp, h8⟩

/-- A split further on. -/
theorem lineSep_more (c : Char) (rest : Str) (n v : Str) (hn : n.length ≠ 1) : LineSep (c :: rest) n v ↔
    ∃ m, n = c :: m ∧ c ≠ '\n' ∧ LineSep rest m v := by
  constructor
  · rintro ⟨⟨pre, c', sep, d, tail, h1, rfl, rfl, h4, h5, h6⟩, h7, h8⟩
    cases pre with
    | nil => simp at hn
    | cons x pre =>
      simp only [List.cons_append, List.cons.injEq] at h1
      obtain ⟨rfl, h1⟩ := h1
      simp only [List.cons_append] at h7
      rw [show (c :: (pre ++ [c'])).dropLast = c :: pre by simp [List.dropLast]] at h7
      simp only [List.mem_cons, not_or] at h7
      exact ⟨pre ++ [c'], rfl, fun e => h7.1 e.symm, ⟨pre, c', sep, d, tail, h1, rfl, rfl, h4, h5, h6⟩, by simpa using h7.2, h8⟩
  · rintro ⟨m, rfl, hc, ⟨pre, c', sep, d, tail, h1, rfl, rfl, h4, h5, h6⟩, h7, h8⟩
    refine ⟨⟨c :: pre, c', sep, d, tail, by rw [h1]; rfl, rfl, rfl, h4, h5, h6⟩, ?_, h8⟩
    rw [show (c :: (pre ++ [c'])).dropLast = c :: pre by simp [List.dropLast]]
    simp only [List.mem_cons, not_or]
    exact ⟨fun e => hc e.symm, by simpa using h7⟩

theorem lineSep_ne (s n v : Str) (h : LineSep s n v) : n ≠ [] := by
  obtain ⟨⟨pre, c, _, _, _, _, rfl, _⟩, _⟩ := h
  simp

theorem varSplitFrom_iff (s : Str) : ∀ acc n v, varSplitFrom acc s = some (n, v) ↔
    ∃ m, n = acc ++ m ∧ LineSep s m v ∧ ∀ a b, LineSep s a b → m.length ≤ a.length := by
  induction s with
  | nil =>
    intro acc n v
    constructor
    · intro h; cases h
    · rintro ⟨m, _, ⟨⟨pre, c, sep, d, tail, h, _⟩, _⟩, _⟩
      have := congrArg List.length h
      simp at this
  | cons c rest ih =>
    intro acc n v
    by_cases here : ∃ v0, LineSep (c :: rest) [c] v0
    · obtain ⟨v0, h0⟩ := here
      obtain ⟨_, sep, d, tail, rfl, rfl, h4, h5, h6, h8⟩ := (lineSep_one c rest [c] v0 rfl).1 h0
      have e : varSplitFrom acc (c :: sep :: d :: tail) = some (acc ++ [c], d :: tail) := by
        unfold varSplitFrom varSplitHere
        have : (!isSep c && isSep sep && !isSep d && tail.all (· != '\n')) = true := by
          simp only [Bool.and_eq_true, Bool.not_eq_true', isSep_false, isSep_iff, List.all_eq_true, bne_iff_ne]
          exact ⟨⟨⟨h5, h4⟩, h6⟩, fun x hx e => h8 (e ▸ hx)⟩
        simp only [this, if_true]
      rw [e]
      simp only [Option.some.injEq, Prod.mk.injEq]
      constructor
      · rintro ⟨rfl, rfl⟩
        refine ⟨[c], rfl, h0, fun a b hab => ?_⟩
        have := lineSep_ne _ _ _ hab
        have : a.length ≠ 0 := fun h => this (List.length_eq_zero_iff.1 h)
        simp only [List.length_singleton]; omega
      · rintro ⟨m, rfl, hm, hmin⟩
        have h1 := hmin _ _ h0
        have h2 := lineSep_ne _ _ _ hm
        have h3 : m.length = 1 := by
          have : m.length ≠ 0 := fun h => h2 (List.length_eq_zero_iff.1 h)
          simp only [List.length_singleton] at h1; omega
        obtain ⟨rfl, sep', d', tail', h, rfl, _⟩ := (lineSep_one c _ m v h3).1 hm
        cases h
        exact ⟨rfl, rfl⟩
    · have nh : varSplitHere acc c rest = none := by
        unfold varSplitHere
        split
        · rename_i sep d tail
          rw [if_neg]
          intro h
          simp only [Bool.and_eq_true, Bool.not_eq_true', isSep_false, isSep_iff, List.all_eq_true, bne_iff_ne] at h
          exact here ⟨d :: tail, (lineSep_one c _ [c] _ rfl).2 ⟨rfl, sep, d, tail, rfl, rfl, h.1.1.2, h.1.1.1, h.1.2, fun hx => h.2 _ hx rfl⟩⟩
        · rfl
      have one : ∀ a b, LineSep (c :: rest) a b → a.length ≠ 1 := by
        intro a b h ha
        obtain ⟨rfl, _⟩ := (lineSep_one c rest a b ha).1 h
        exact here ⟨b, h⟩
      have e : varSplitFrom acc (c :: rest) = if c == '\n' then none else varSplitFrom (acc ++ [c]) rest := by
        rw [varSplitFrom]
        simp only [nh]
      rw [e]
      by_cases hc : c = '\n'
      · rw [if_pos (by simp [hc])]
        constructor
        · intro h; cases h
        · rintro ⟨m, _, hm, _⟩
          obtain ⟨_, _, h, _⟩ := (lineSep_more c rest m v (one _ _ hm)).1 hm
          exact absurd hc h
      · rw [if_neg (by simp [hc]), ih]
        constructor
        · rintro ⟨m, rfl, hm, hmin⟩
          have hl : (c :: m).length ≠ 1 := by
            have := lineSep_ne _ _ _ hm
            simp only [List.length_cons]
            intro h
            exact this (List.length_eq_zero_iff.1 (by omega))
          refine ⟨c :: m, by simp, (lineSep_more c rest _ v hl).2 ⟨m, rfl, hc, hm⟩, fun a b hab => ?_⟩
          obtain ⟨a', rfl, _, h⟩ := (lineSep_more c rest a b (one _ _ hab)).1 hab
          have := hmin a' b h
          simp only [List.length_cons]; omega
        · rintro ⟨m, rfl, hm, hmin⟩
          obtain ⟨m', rfl, _, h⟩ := (lineSep_more c rest m v (one _ _ hm)).1 hm
          refine ⟨m', by simp, h, fun a b hab => ?_⟩
          have hl : (c :: a).length ≠ 1 := by
            have := lineSep_ne _ _ _ hab
            simp only [List.length_cons]
            intro h
            exact this (List.length_eq_zero_iff.1 (by omega))
          have := hmin (c :: a) b ((lineSep_more c rest _ b hl).2 ⟨a, rfl, hc, hab⟩)
          simpa using this

/-- C54, for any argument: it is split at the first lone separator that has newlines in no other places than right next to
it. -/
theorem C54_any (arg n v : Str) : varSplit arg = some (n, v) ↔ LineSep arg n v ∧ ∀ a b, LineSep arg a b → n.length ≤ a.length := by
  unfold varSplit
  rw [varSplitFrom_iff]
  constructor
  · rintro ⟨m, rfl, h⟩; simpa using h
  · intro h; exact ⟨n, by simp, h⟩

/-- C54 for arguments without newlines: split at the first lone separator. -/
theorem C54_split_partial (arg : Str) (hnl : '\n' ∉ arg) (n v : Str) : varSplit arg = some (n, v) ↔ FirstLoneSep arg n v := by
  have e : ∀ a b, LineSep arg a b ↔ LoneSep arg a b := by
    intro a b
    refine ⟨fun h => h.1, fun h => ⟨h, ?_, ?_⟩⟩
    · obtain ⟨_, _, sep, _, _, rfl, _⟩ := h
      exact fun hm => hnl (List.mem_append_left _ (List.dropLast_subset _ hm))
    · obtain ⟨_, _, sep, _, _, rfl, _⟩ := h
      exact fun hm => hnl (List.mem_append_right _ (List.mem_cons_of_mem _ (List.mem_of_mem_tail hm)))
  rw [C54_any]
  simp only [e]
  rfl

/-- C54 for arguments without newlines: it is an error iff there is no lone separator. -/
theorem C54_error_partial (arg : Str) (hnl : '\n' ∉ arg) : varSplit arg = none ↔ ∀ n v, ¬LoneSep arg n v := by
  constructor
  · intro h n v hl
    -- take a shortest one
    have : ∀ k, ∀ n v, n.length ≤ k → LoneSep arg n v → ∃ n v, FirstLoneSep arg n v := by
      intro k
      induction k with
      | zero =>
        intro n v hk hl
        exact ⟨n, v, hl, fun a b _ => by omega⟩
      | succ k ih =>
        intro n v hk hl
        by_cases hm : ∃ a b, LoneSep arg a b ∧ a.length < n.length
        · obtain ⟨a, b, h1, h2⟩ := hm
          exact ih a b (by omega) h1
        · refine ⟨n, v, hl, fun a b hab => ?_⟩
          by_contra hlt
          exact hm ⟨a, b, hab, by omega⟩
    obtain ⟨n, v, hf⟩ := this n.length n v (Nat.le_refl _) hl
    rw [(C54_split_partial arg hnl n v).2 hf] at h
    cases h
  · intro h
    cases hs : varSplit arg with
    | none => rfl
    | some q => exact absurd ((C54_split_partial arg hnl q.1 q.2).1 hs).1 (h _ _)

/-- C54 is false of values with newlines: they are taken for errors. -/
theorem C54_false : FirstLoneSep "x=a\nb".toList "x".toList "a\nb".toList ∧ varSplit "x=a\nb".toList = none := by
  refine ⟨⟨⟨[], 'x', '=', 'a', "\nb".toList, by decide, by decide, by decide, .inr rfl, by simp [IsSep], by simp [IsSep]⟩, ?_⟩, by decide⟩
  intro n v h
  obtain ⟨_, _, _, _, _, _, rfl, _⟩ := h
  simp

example : varSplit "a::b=c=d".toList = some ("a::b".toList, "c=d".toList) ∧ varSplit "a:=b".toList = none ∧
    varSplit "=a=b".toList = some ("=a".toList, "b".toList) ∧ varSplit "a=".toList = none ∧
    varSplit "a:b".toList = some ("a".toList, "b".toList) := by decide

/-! ### C53 -/

theorem last_nil (k v : Value) : ¬LastDef [] k v := by
  rintro ⟨pre, k', post, h, _⟩
  have := congrArg List.length h
  simp at this

theorem last_cons (d : Value × Value) (defs : List (Value × Value)) (k v : Value) :
    LastDef (d :: defs) k v ↔ LastDef defs k v ∨ ((∀ e ∈ defs, k.equals e.1 = false) ∧ k.equals d.1 = true ∧ d.2 = v) := by
  constructor
  · rintro ⟨pre, k', post, h1, h2, h3⟩
    cases pre with
    | nil => cases h1; exact .inr ⟨h3, h2, rfl⟩
    | cons x pre =>
      simp only [List.cons_append, List.cons.injEq] at h1
      exact .inl ⟨pre, k', post, h1.2, h2, h3⟩
  · rintro (⟨pre, k', post, rfl, h2, h3⟩ | ⟨h3, h2, rfl⟩)
    · exact ⟨d :: pre, k', post, rfl, h2, h3⟩
    · exact ⟨[], d.1, defs, rfl, h2, h3⟩

theorem last_append (a b : List (Value × Value)) (k v : Value) :
    LastDef (a ++ b) k v ↔ LastDef b k v ∨ ((∀ e ∈ b, k.equals e.1 = false) ∧ LastDef a k v) := by
  induction a with
  | nil => simp [last_nil]
  | cons d a ih =>
    rw [List.cons_append, last_cons, ih, last_cons]
    simp only [List.mem_append, or_imp, forall_and]
    tauto

theorem last_none (defs : List (Value × Value)) (k : Value) : (∀ e ∈ defs, k.equals e.1 = false) ↔ ∀ v, ¬LastDef defs k v := by
  induction defs with
  | nil => simp [last_nil]
  | cons d defs ih =>
    constructor
    · intro h v hl
      rcases (last_cons d defs k v).1 hl with hl | ⟨_, h2, _⟩
      · exact (ih.1 (fun e he => h e (by simp [he]))) v hl
      · rw [h d (by simp)] at h2; cases h2
    · intro h
      have h1 := ih.2 (fun v hv => h v ((last_cons d defs k v).2 (.inl hv)))
      intro e he
      rcases List.mem_cons.1 he with rfl | he
      · cases hk : k.equals e.1 with
        | false => rfl
        | true => exact absurd ((last_cons e defs k e.2).2 (.inr ⟨h1, hk, rfl⟩)) (h _)
      · exact h1 e he

/-- Putting definitions into a map one after the other. -/
theorem get_putAll_last (defs : List (Value × Value)) : ∀ es : Entries, WF (.map es) → (∀ e ∈ defs, WF e.1 ∧ WF e.2) → ∀ k v, WF k →
    (Entries.get (Entries.putAll es defs) k = some v ↔
      LastDef defs k v ∨ ((∀ e ∈ defs, k.equals e.1 = false) ∧ Entries.get es k = some v)) := by
  induction defs with
  | nil => intro es _ _ k v _; simp [Entries.putAll, last_nil]
  | cons d defs ih =>
    intro es hw hd k v hk
    have hd1 := hd d (by simp)
    show Entries.get (Entries.putAll (Entries.put es d.1 d.2) defs) k = some v ↔ _
    rw [ih _ (Entries.WF_put hw hd1.1 hd1.2) (fun e he => hd e (by simp [he])) k v hk, Entries.get_put hw hd1.1 hk, last_cons,
      equals_comm hd1.1 hk]
    simp only [List.mem_cons, forall_eq_or_imp]
    cases k.equals d.1 <;> simp <;> tauto

theorem putAll_append (es a b : Entries) : Entries.putAll es (a ++ b) = Entries.putAll (Entries.putAll es a) b := by
  simp [Entries.putAll]

theorem parseCommandLineValue_of (C : CliEnv) (s : Str) (v : Value) (h : parseCommandLineValue C s = .ok v) : VarValue C s v := by
  unfold parseCommandLineValue at h
  have ht := trimSpace_trimmed s
  simp only at h
  generalize trimSpace s = t at *
  cases t with
  | nil => cases h; exact .text ht (by simp)
  | cons c t =>
    simp only at h
    split at h
    · rename_i hc
      exact .parsed ht rfl (by simpa [needParse] using hc) h
    · rename_i hc
      cases h
      refine .text ht ?_
      rintro _ ⟨⟩
      simpa [needParse] using hc

theorem addVariables_of (C : CliEnv) (args : List Str) : ∀ es es', addVariables C args es = .ok es' →
    ∃ defs, ArgDefs C args defs ∧ es' = Entries.putAll es defs := by
  induction args with
  | nil => intro es es' h; cases h; exact ⟨[], .nil, rfl⟩
  | cons arg args ih =>
    intro es es' h
    unfold addVariables at h
    cases hs : varSplit arg with
    | none => rw [hs] at h; cases h
    | some q =>
      obtain ⟨n, v⟩ := q
      rw [hs] at h
      simp only at h
      cases hp : parseCommandLineValue C v with
      | panic e => rw [hp] at h; cases h
      | ok w =>
        rw [hp] at h
        obtain ⟨defs, h1, h2⟩ := ih _ _ h
        obtain ⟨h3, h4⟩ := (C54_any arg n v).1 hs
        exact ⟨_, .cons h3 h4 (trimSpace_trimmed n) (parseCommandLineValue_of C v w hp) h1, h2⟩

theorem addVarPaths_of (C : CliEnv) (ps : List Str) : ∀ i es es' j, addVarPaths C ps i es = .ok (es', j) →
    ∃ defs, FileDefs C i ps defs j ∧ es' = Entries.putAll es defs := by
  induction ps with
  | nil => intro i es es' j h; cases h; exact ⟨[], .nil, rfl⟩
  | cons p ps ih =>
    intro i es es' j h
    unfold addVarPaths at h
    by_cases hp : p = ['-']
    · simp only [hp, if_true] at h
      cases i with
      | err e => cases h
      | empty =>
        obtain ⟨defs, h1, h2⟩ := ih _ _ _ _ h
        exact ⟨defs, hp ▸ .stdinEmpty h1, h2⟩
      | value v =>
        cases v with
        | map fs =>
          obtain ⟨defs, h1, h2⟩ := ih _ _ _ _ h
          exact ⟨fs ++ defs, hp ▸ .stdin h1, by rw [putAll_append]; exact h2⟩
        | _ => cases h
    · simp only [hp, if_false] at h
      cases hf : C.readFile p with
      | err e => rw [hf] at h; cases h
      | empty =>
        rw [hf] at h
        obtain ⟨defs, h1, h2⟩ := ih _ _ _ _ h
        exact ⟨defs, .fileEmpty hp hf h1, h2⟩
      | value v =>
        rw [hf] at h
        cases v with
        | map fs =>
          obtain ⟨defs, h1, h2⟩ := ih _ _ _ _ h
          exact ⟨fs ++ defs, .file hp hf h1, by rw [putAll_append]; exact h2⟩
        | _ => cases h

theorem argDefs_WF {C : CliEnv} (hC : CliWF C) {args : List Str} {defs : List (Value × Value)} (h : ArgDefs C args defs) :
    ∀ e ∈ defs, WF e.1 ∧ WF e.2 := by
  induction h with
  | nil => simp
  | cons _ _ _ hv _ ih =>
    intro e he
    rcases List.mem_cons.1 he with rfl | he
    · refine ⟨WF_str _, ?_⟩
      cases hv with
      | text _ _ => exact WF_str _
      | parsed _ _ _ hp => exact hC.parse _ _ hp
    · exact ih e he

theorem fileDefs_WF {C : CliEnv} (hC : CliWF C) {i j : VarFile} (hi : ∀ v, i = .value v → v.WF) {ps : List Str} {defs : List (Value × Value)}
    (h : FileDefs C i ps defs j) : (∀ e ∈ defs, WF e.1 ∧ WF e.2) ∧ ∀ v, j = .value v → v.WF := by
  induction h with
  | nil => exact ⟨by simp, hi⟩
  | stdin _ ih =>
    obtain ⟨h1, h2⟩ := ih (by rintro _ ⟨⟩)
    refine ⟨fun e he => ?_, h2⟩
    rcases List.mem_append.1 he with he | he
    · exact (WF_map.1 (hi _ rfl)).1 e he
    · exact h1 e he
  | stdinEmpty _ ih => exact ih (by rintro _ ⟨⟩)
  | file _ hf _ ih =>
    obtain ⟨h1, h2⟩ := ih hi
    refine ⟨fun e he => ?_, h2⟩
    rcases List.mem_append.1 he with he | he
    · exact (WF_map.1 (hC.file _ _ hf)).1 e he
    · exact h1 e he
  | fileEmpty _ _ _ ih => exact ih hi

/-- C53: a variable has the value of its last definition in the order `--var`, `--vars`, `--facts`; if there are facts,
`facts` is the hash of all of them. -/
theorem C53_scope (C : CliEnv) (hC : CliWF C) (o : CommandOptions) (scope : Entries) (h : createScope C o = .ok scope) :
    ∃ vd fd xd i j, ArgDefs C o.vars vd ∧ FileDefs C C.stdin o.varPaths fd i ∧ FileDefs C i o.factPaths xd j ∧
      (∀ k v, WF k → (o.factPaths = [] ∨ k.equals (.str "facts".toList) = false) →
        (Entries.get scope k = some v ↔ LastDef (vd ++ fd ++ xd) k v)) ∧
      (o.factPaths ≠ [] → ∃ facts, Entries.getS scope "facts".toList = some (.map facts) ∧
        ∀ k v, WF k → (Entries.get facts k = some v ↔ LastDef xd k v)) := by
  unfold createScope at h
  cases h1 : addVariables C o.vars [] with
  | panic e => rw [h1] at h; cases h
  | ok s1 =>
    rw [h1] at h
    obtain ⟨vd, hvd, e1⟩ := addVariables_of C _ _ _ h1
    simp only [bind, Res.bind] at h
    cases h2 : addVarPaths C o.varPaths C.stdin s1 with
    | panic e => rw [h2] at h; cases h
    | ok q =>
      obtain ⟨s2, i⟩ := q
      rw [h2] at h
      obtain ⟨fd, hfd, e2⟩ := addVarPaths_of C _ _ _ _ _ h2
      simp only at h
      have w1 := argDefs_WF hC hvd
      obtain ⟨w2, wi⟩ := fileDefs_WF hC hC.stdin hfd
      have ws1 : WF (.map s1) := e1 ▸ Entries.WF_putAll Entries.WF_nil w1
      have ws2 : WF (.map s2) := e2 ▸ Entries.WF_putAll ws1 w2
      have g2 : ∀ k v, WF k → (Entries.get s2 k = some v ↔ LastDef (vd ++ fd) k v) := by
        intro k v hk
        rw [e2, get_putAll_last fd s1 ws1 w2 k v hk, e1, get_putAll_last vd [] Entries.WF_nil w1 k v hk, last_append]
        simp [Entries.get_nil]
      by_cases hl : o.factPaths = []
      · rw [hl] at h ⊢
        simp only [List.length_nil, gt_iff_lt, Nat.lt_irrefl, if_false] at h
        cases h
        exact ⟨vd, fd, [], i, i, hvd, hfd, .nil, fun k v hk _ => by rw [g2 k v hk]; simp, fun h => absurd rfl h⟩
      · have hlen : o.factPaths.length > 0 := List.length_pos_iff.2 hl
        rw [if_pos hlen] at h
        cases h3 : addVarPaths C o.factPaths i [] with
        | panic e => rw [h3] at h; cases h
        | ok q =>
          obtain ⟨facts, j⟩ := q
          rw [h3] at h
          obtain ⟨xd, hxd, e3⟩ := addVarPaths_of C _ _ _ _ _ h3
          obtain ⟨w3, _⟩ := fileDefs_WF hC wi hxd
          cases h
          have wf : WF (.map facts) := e3 ▸ Entries.WF_putAll Entries.WF_nil w3
          have g3 : ∀ k v, WF k → (Entries.get facts k = some v ↔ LastDef xd k v) := by
            intro k v hk
            rw [e3, get_putAll_last xd [] Entries.WF_nil w3 k v hk]
            simp [Entries.get_nil]
          have ws3 : WF (.map (Entries.putAll s2 facts)) := Entries.WF_putAll ws2 (WF_map.1 wf).1
          refine ⟨vd, fd, xd, i, j, hvd, hfd, hxd, fun k v hk hf => ?_, fun _ => ⟨facts, ?_, g3⟩⟩
          · have hf : k.equals (.str "facts".toList) = false := hf.resolve_left hl
            rw [Entries.get_put ws3 (WF_str _) hk, equals_comm (WF_str _) hk, hf]
            simp only [Bool.false_eq_true, if_false]
            rw [Entries.get_putAll ws2 wf hk, last_append, last_none, ← g2 k v hk]
            cases hg : Entries.get facts k with
            | some w =>
              have lw := (g3 k w hk).1 hg
              simp only [Option.some_or, Option.some.injEq]
              constructor
              · rintro rfl; exact .inl lw
              · rintro (lv | ⟨hn, _⟩)
                · have := (g3 k v hk).2 lv; rw [hg] at this; cases this; rfl
                · exact absurd lw (hn w)
            | none =>
              simp only [Option.none_or]
              have hn : ∀ w, ¬LastDef xd k w := fun w hw => by
                have := (g3 k w hk).2 hw; rw [hg] at this; cases this
              constructor
              · exact fun h => .inr ⟨hn, h⟩
              · rintro (lv | ⟨_, h⟩)
                · exact absurd lv (hn v)
                · exact h
          · show Entries.get _ _ = _
            rw [Entries.get_put ws3 (WF_str _) (WF_str _)]
            simp

/-- C53: a variable that cannot be split is an error, whatever else there is. -/
theorem C53_bad_variable (C : CliEnv) (o : CommandOptions) (pre post : List Str) (arg : Str) (hs : varSplit arg = none)
    (hv : o.vars = pre ++ arg :: post) :
    ∃ e, createScope C o = .panic e := by
  unfold createScope
  rw [hv]
  have : ∀ es, ∃ e, addVariables C (pre ++ arg :: post) es = .panic e := by
    clear hv
    induction pre with
    | nil => intro es; exact ⟨_, by simp only [List.nil_append]; rw [addVariables, hs]⟩
    | cons a pre ih =>
      intro es
      simp only [List.cons_append]
      rw [addVariables]
      cases varSplit a with
      | none => exact ⟨_, rfl⟩
      | some q =>
        simp only
        cases parseCommandLineValue C q.2 with
        | panic e => exact ⟨e, rfl⟩
        | ok w => exact ih _
  obtain ⟨e, he⟩ := this []
  rw [he]
  exact ⟨e, rfl⟩

/-- Some files. -/
def cliEnv : CliEnv where
  parseValue := fun t => if t = "{a}".toList then .ok (.map [(s "a", .int 1)]) else .panic (.other 1)
  readFile := fun p => if p = "f".toList then .value (.map [(s "x", .int 2), (s "y", .int 3)])
    else if p = "g".toList then .value (.map [(s "y", .int 4), (s "facts", .int 5)]) else if p = "e".toList then .empty else .err (.other 2)
  stdin := .value (.map [(s "z", .int 6)])

example : createScope cliEnv { vars := ["x=1".toList, " v : {a}".toList, "w:{ ".toList] } = .panic (.other 1) ∧
    createScope cliEnv { vars := ["x=1".toList, " v : {a}".toList], varPaths := ["f".toList, "-".toList, "-".toList, "e".toList], factPaths := ["g".toList] } =
      .ok [(s "x", .int 2), (s "v", .map [(s "a", .int 1)]), (s "y", .int 4), (s "z", .int 6),
        (s "facts", .map [(s "y", .int 4), (s "facts", .int 5)])] := by decide +kernel

/-! ### C62 -/

/-- C62, the part that holds: a strategy other than `first` that is requested is the one with which the hierarchy is asked,
whatever the lookup options say. -/
theorem C62_honoured_partial (E : Env) (rec : Rec) (path name key m : Str) (st u : St) (rc : RCfg) (k : Key) (s : Strategy)
    (h0 : m ≠ []) (h1 : m ≠ "first".toList) (hs : StrategyNamed [] m (.ok s))
    (hcfg : config E rec path name st = some (.ok rc, u)) (hk : newKey key = .ok k) (hm : u.v.ic.mode = .top) (ho : u.on = none)
    (hwo : ∀ m, rc.optionsOf k = some m → WF (.map m)) (hn : ∀ m, rc.optionsOf k = some m → ¬Has m "convert_to".toList) :
    configAt E rec path (mergeOptions m) key name st =
      match mergeHierarchy E rec k rc.providers s (asking u (rc.optionsOf k) s false) with
      | none => none
      | some (r, t) => some (r, { setIc t u.v.ic with on := none }) := by
  have e : Entries.getS (mergeOptions m) "merge".toList = some (.str m) := by
    unfold mergeOptions
    rw [if_neg (not_or.2 ⟨h0, h1⟩)]
    simp [Entries.getS, Entries.get]
  exact C32_lookup_partial E rec path name key (mergeOptions m) st u rc k hcfg hk hm ho
    (by rw [e]; rintro _ ⟨⟩; exact WF_str _) hwo (some (.str m)) s (by rw [e]; exact .caller rfl) (.name hs) hn

/-- C62: a strategy that does not exist is an error. -/
theorem C62_unknown (E : Env) (rec : Rec) (path name key m : Str) (st u : St) (rc : RCfg) (k : Key)
    (h0 : m ≠ []) (h1 : m ∉ ["first".toList, "unique".toList, "hash".toList, "deep".toList])
    (hcfg : config E rec path name st = some (.ok rc, u)) (hk : newKey key = .ok k) (hm : u.v.ic.mode = .top) (ho : u.on = none)
    (hwo : ∀ m, rc.optionsOf k = some m → WF (.map m)) :
    configAt E rec path (mergeOptions m) key name st = some (.panic (.unknownStrategy m), u) := by
  have h2 : m ≠ "first".toList := fun e => h1 (by simp [e])
  have e : Entries.getS (mergeOptions m) "merge".toList = some (.str m) := by
    unfold mergeOptions
    rw [if_neg (not_or.2 ⟨h0, h2⟩)]
    simp [Entries.getS, Entries.get]
  exact C32_unknown E rec path name key (mergeOptions m) st u rc k hcfg hk hm ho
    (by rw [e]; rintro _ ⟨⟩; exact WF_str _) hwo (some (.str m)) _ (by rw [e]; exact .caller rfl) (.name (.unknown h1))

/-- C62: these options are those of the lookup that `LookupAndRender` performs for each argument. -/
theorem C62_lookup (A : Cli) (rec : Rec) (o : CommandOptions) (tp : Option Nat) (dv : Option Value) (args : List Str)
    (h : o.lookupAll = false) : lookupFor A rec o tp dv args = lookup2 A.types rec args tp dv none none (mergeOptions o.merge) none := by
  unfold lookupFor
  simp [h]

/-- Two levels with a list each, which lookup options say to merge. -/
def cliWorld : Cli where
  types := ⟨two [(s "lookup_options", .map [(s "x", .map [(s "merge", s "unique")])]), (s "x", .arr [.int 1]), (s "y", .arr [.int 1])]
      [(s "x", .arr [.int 2]), (s "y", .arr [.int 2])], fun _ _ => true⟩
  cli := cliEnv
  render := ⟨fun | .value v => .ok (match v with | .arr es => es.flatMap (fun | .int n => (toString n).toList ++ [','] | _ => []) | _ => "?".toList) | _ => .ok [],
    fun _ => .ok [], fun _ => .ok [], fun _ => []⟩
  scope := .map []
  members := fun _ => none

/-- What is printed. -/
def cliAsk (merge key : String) : Option (Res (Bool × String)) :=
  (lookupAndRender cliWorld (eval cliWorld.types.env 8) { merge := merge.toList, renderAs := "json".toList } [key.toList] (st []).v).map
    (fun r => match r.1 with | .ok (b, t) => .ok (b, String.ofList t) | .panic e => .panic e)

example : cliAsk "unique" "y" = some (.ok (true, "1,2,\n")) ∧ cliAsk "" "y" = some (.ok (true, "1,\n")) ∧
    cliAsk "" "z" = some (.ok (false, "")) ∧ cliAsk "sum" "y" = some (.panic (.unknownStrategy "sum".toList)) := by decide +kernel

/-- C62 is false of `first`: it is dropped, and lookup options take precedence. -/
theorem C62_false : cliAsk "first" "x" = some (.ok (true, "1,2,\n")) ∧ cliAsk "first" "y" = some (.ok (true, "1,\n")) := by
  decide +kernel

end Hiera
