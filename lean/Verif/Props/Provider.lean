/-
  Properties of the providers and of what their functions see.
-/
import Verif.Spec.Provider
import Verif.Props.Strategy

set_option autoImplicit false

namespace Hiera
open Spec Value World

/-! ### C55 -/

theorem splitEq_iff (acc ev n v : Str) (ha : '=' ∉ acc) :
    splitEq acc ev = some (n, v) ↔ acc ++ ev = n ++ '=' :: v ∧ n ≠ [] ∧ '=' ∉ n := by
  induction ev generalizing acc with
  | nil =>
    simp only [splitEq, List.append_nil]
    constructor
    · intro h; cases h
    · rintro ⟨rfl, _, _⟩; exact absurd (by simp) ha
  | cons c cs ih =>
    unfold splitEq
    by_cases hc : c = '='
    · subst hc
      rw [if_pos rfl]
      have key : acc ++ '=' :: cs = n ++ '=' :: v ∧ '=' ∉ n ↔ acc = n ∧ cs = v := by
        constructor
        · rintro ⟨h1, h2⟩
          rcases List.append_eq_append_iff.1 h1 with ⟨as, h3, h4⟩ | ⟨bs, h3, h4⟩
          · cases as with
            | nil => simp_all
            | cons a as =>
              simp only [List.cons_append, List.cons.injEq] at h4
              exact absurd (by rw [h3, ← h4.1]; simp) h2
          · cases bs with
            | nil => simp_all
            | cons a as =>
              simp only [List.cons_append, List.cons.injEq] at h4
              exact absurd (by rw [h3, ← h4.1]; simp) ha
        · rintro ⟨rfl, rfl⟩; exact ⟨rfl, ha⟩
      by_cases he : acc = []
      · rw [if_pos he]
        constructor
        · intro h; cases h
        · rintro ⟨h1, h2, h3⟩
          exact absurd ((key.1 ⟨h1, h3⟩).1 ▸ he) h2
      · rw [if_neg he]
        constructor
        · intro h; cases h; exact ⟨rfl, he, ha⟩
        · rintro ⟨h1, h2, h3⟩
          obtain ⟨rfl, rfl⟩ := key.1 ⟨h1, h3⟩; rfl
    · rw [if_neg hc, ih (acc ++ [c]) (by simp [ha, Ne.symm hc])]
      simp

theorem splitEq_defines (ev n v : Str) : splitEq [] ev = some (n, v) ↔ Defines ev n v := by
  rw [splitEq_iff [] ev n v (by simp)]; rfl

/-- The map that the loop builds. -/
theorem envMap_spec (env : List Str) : ∀ em : Entries, WF (.map em) →
    WF (.map (envMap env em)) ∧ ∀ n x, Entries.getS (envMap env em) n = some x ↔
      (∃ v, LastDefinition env n v ∧ x = .str v) ∨ ((∀ ev ∈ env, ∀ v, ¬Defines ev n v) ∧ Entries.getS em n = some x) := by
  induction env with
  | nil =>
    intro em hw
    refine ⟨hw, fun n x => ?_⟩
    simp [envMap, LastDefinition]
  | cons ev evs ih =>
    intro em hw
    unfold envMap
    have tail : ∀ n v, LastDefinition (ev :: evs) n v ↔
        LastDefinition evs n v ∨ (Defines ev n v ∧ ∀ ev' ∈ evs, ∀ v', ¬Defines ev' n v') := by
      intro n v
      constructor
      · rintro ⟨pre, e, post, h1, h2, h3⟩
        cases pre with
        | nil => simp only [List.nil_append, List.cons.injEq] at h1; obtain ⟨rfl, rfl⟩ := h1; exact .inr ⟨h2, h3⟩
        | cons p pre =>
          simp only [List.cons_append, List.cons.injEq] at h1; obtain ⟨rfl, rfl⟩ := h1
          exact .inl ⟨pre, e, post, rfl, h2, h3⟩
      · rintro (⟨pre, e, post, rfl, h2, h3⟩ | ⟨h2, h3⟩)
        · exact ⟨ev :: pre, e, post, rfl, h2, h3⟩
        · exact ⟨[], ev, evs, rfl, h2, h3⟩
    cases hs : splitEq [] ev with
    | none =>
      have hno : ∀ n v, ¬Defines ev n v := fun n v h => by rw [(splitEq_defines ev n v).2 h] at hs; cases hs
      obtain ⟨h1, h2⟩ := ih em hw
      refine ⟨h1, fun n x => ?_⟩
      simp only
      rw [h2]
      simp only [tail, hno, false_and, or_false, List.mem_cons, forall_eq_or_imp, not_false_eq_true, implies_true, true_and]
    | some q =>
      obtain ⟨k, w⟩ := q
      have hd := (splitEq_defines ev k w).1 hs
      have hun : ∀ n v, Defines ev n v → n = k ∧ v = w := by
        intro n v h
        have := (splitEq_defines ev n v).2 h
        rw [hs] at this; cases this; exact ⟨rfl, rfl⟩
      obtain ⟨h1, h2⟩ := ih (Entries.put em (.str k) (.str w)) (Entries.WF_put hw (WF_str _) (WF_str _))
      refine ⟨h1, fun n x => ?_⟩
      simp only
      rw [h2]
      have hg : Entries.getS (Entries.put em (.str k) (.str w)) n = if k = n then some (.str w) else Entries.getS em n := by
        unfold Entries.getS
        rw [Entries.get_put hw (WF_str _) (WF_str _)]
        by_cases hkn : k = n
        · subst hkn; simp
        · simp [hkn, Ne.symm hkn]
      rw [hg]
      constructor
      · rintro (⟨v, h3, rfl⟩ | ⟨h3, h4⟩)
        · exact .inl ⟨v, (tail n v).2 (.inl h3), rfl⟩
        · by_cases hkn : k = n
          · subst hkn
            rw [if_pos rfl] at h4; cases h4
            exact .inl ⟨w, (tail k w).2 (.inr ⟨hd, h3⟩), rfl⟩
          · rw [if_neg hkn] at h4
            refine .inr ⟨?_, h4⟩
            intro ev' hev' v hdv
            rcases List.mem_cons.1 hev' with rfl | hev'
            · exact hkn (hun n v hdv).1.symm
            · exact h3 ev' hev' v hdv
      · rintro (⟨v, h3, rfl⟩ | ⟨h3, h4⟩)
        · rcases (tail n v).1 h3 with h3 | ⟨h3, h4⟩
          · exact .inl ⟨v, h3, rfl⟩
          · obtain ⟨rfl, rfl⟩ := hun n v h3
            exact .inr ⟨h4, by rw [if_pos rfl]⟩
        · refine .inr ⟨fun ev' hev' => h3 ev' (List.mem_cons_of_mem _ hev'), ?_⟩
          rw [if_neg (fun hkn : k = n => h3 ev (by simp) w (hkn ▸ hd))]
          exact h4

/-- C55: the key `env` yields a hash that has, for each variable, the value of its last definition in the environment, and
nothing else. -/
theorem C55_all (E : Env) : ∃ es, envLookup E "env".toList = some (.map es) ∧ WF (.map es) ∧
    ∀ n x, Entries.getS es n = some x ↔ ∃ v, LastDefinition E.environ n v ∧ x = .str v := by
  obtain ⟨h1, h2⟩ := envMap_spec E.environ [] Entries.WF_nil
  refine ⟨_, if_pos rfl, h1, fun n x => ?_⟩
  rw [h2]
  simp [Entries.getS, Entries.get_nil]

/-- C55: `env::NAME` yields what the environment has for `NAME`. -/
theorem C55_one (E : Env) (n : Str) : envLookup E ("env::".toList ++ n) = (E.lookupEnv n).map .str := by
  unfold envLookup
  rw [if_neg (by intro h; have := congrArg List.length h; simp at this)]
  rfl

/-- C55: every other key yields nothing. -/
theorem C55_other (E : Env) (key : Str) (h1 : key ≠ "env".toList) (h2 : ∀ n, key ≠ "env::".toList ++ n) :
    envLookup E key = none := by
  unfold envLookup
  rw [if_neg h1]
  split
  · rename_i n
    exact absurd rfl (h2 n)
  · rfl

example : envLookup { top := .env, environ := ["A=1".toList, "B=x=y".toList, "=C:=no".toList, "A=2".toList] } "env".toList =
    some (.map [(s "A", s "2"), (s "B", s "x=y")]) := by decide +kernel
example : LastDefinition ["A=1".toList, "A=2".toList] "A".toList "2".toList :=
  ⟨["A=1".toList], "A=2".toList, [], rfl, ⟨rfl, by simp, by decide⟩, by simp⟩
example : envLookup { top := .env, lookupEnv := fun n => if n = "A".toList then some "1".toList else none } "env::A".toList =
    some (s "1") := by decide +kernel

/-! ### C56 -/

/-- The options that the code passes are those that functions are to see. -/
theorem optionsFor_sees (p : Prov) (loc : Option Loc) (hw : WF (.map (p.entry.options.getD []))) : Sees p loc (optionsFor p loc) := by
  cases loc with
  | none => exact ⟨fun _ _ => rfl, rfl⟩
  | some l =>
    have hp : WF (.map [(.str "path".toList, .str l.resolved)]) := by simp [WF_map, UniqueKeys]
    unfold optionsFor Sees Entries.getS
    generalize "path".toList = c at *
    constructor
    · intro k hk
      rw [Entries.get_merge hw hp (WF_str _)]
      simp [Entries.get_cons, Entries.get_nil, hk]
    · rw [Entries.get_merge hw hp (WF_str _)]
      simp [Entries.get_cons, Entries.get_nil]

/-- C56: the function of a `lookup_key` entry is called with the entry's options and the location, and with the first
segment of the key; the answer is what the function answers. -/
theorem C56_lookup_key (E : Env) (rec : Rec) (p : Prov) (n : Str) (loc : Option Loc) (k : Key) (f : LkFn)
    (hw : WF (.map (p.entry.options.getD []))) (hn : n ≠ "environment".toList ∧ n ≠ "scope".toList)
    (hf : loadFunction E p.entry n = .ok (some (.key f))) (st : St) (ho : st.on = none)
    (hq : ∀ o s r t, s.on = none → rec.lk f o k.root s = some (r, t) → t.on = none) :
    ∃ opts st', Sees p loc opts ∧ st'.v.ic = st.v.ic ∧ st'.v.trace = st.v.trace ++ [.key n opts k.root] ∧
      lookupKeyLookup E rec p n loc k st = rec.lk f opts k.root st' := by
  have load : ∃ u, loadOnce E p n st = some (.ok (some (.key f)), u) ∧ u.v.ic = st.v.ic ∧ u.v.trace = st.v.trace ∧ u.on = none := by
    unfold loadOnce
    rw [hf, M.lift_ok_bind, bind_ok (show view st = some (.ok st.v, st) from rfl)]
    by_cases hl : p.id ∈ st.v.loaded
    · rw [if_pos hl]; exact ⟨st, rfl, rfl, rfl, ho⟩
    · rw [if_neg hl]
      exact ⟨{ st with v := { st.v with loaded := p.id :: st.v.loaded } }, rfl, rfl, rfl, ho⟩
  obtain ⟨u, hu, h1, h2, h3⟩ := load
  refine ⟨optionsFor p loc, { u with v := { u.v with trace := u.v.trace ++ [.key n (optionsFor p loc) k.root] } },
    optionsFor_sees p loc hw, h1, by rw [h2], ?_⟩
  unfold lookupKeyLookup
  rw [if_neg hn.1, if_neg hn.2, bind_ok hu]
  simp only
  rw [bind_ok (show emit (.key n (optionsFor p loc) k.root) u =
    some (.ok (), { u with v := { u.v with trace := u.v.trace ++ [.key n (optionsFor p loc) k.root] } }) from rfl), bind_def]
  cases hr : rec.lk f (optionsFor p loc) k.root
      { u with v := { u.v with trace := u.v.trace ++ [.key n (optionsFor p loc) k.root] } } with
  | none => rfl
  | some x =>
    obtain ⟨r, t⟩ := x
    have hot := hq _ { u with v := { u.v with trace := u.v.trace ++ [.key n (optionsFor p loc) k.root] } } _ _ h3 hr
    rcases r with v | e
    · cases v with
      | none => simp only [reportResult]; rw [bind_ok (Quiet.off_report hot)]; rfl
      | some v => simp only [reportResult]; rw [bind_ok (Quiet.off_report hot)]; rfl
    · rfl

theorem dataHash_run (E : Env) (p : Prov) (n : Str) (loc : Option Loc) (st : St) : dataHash E p n loc st =
    match assoc (p, memoKey loc) st.v.hashes with
    | some h => some (.ok h, st)
    | none => (do
        let h ← callHash E p n (optionsFor p loc)
        update (fun w => { w with hashes := ((p, memoKey loc), h) :: w.hashes })
        pure h : M Entries) st := by
  unfold dataHash
  rw [bind_ok (show view st = some (.ok st.v, st) from rfl)]
  cases loc with
  | none => unfold memoKey; simp only; cases assoc (p, []) st.v.hashes <;> rfl
  | some l => unfold memoKey; simp only; cases assoc (p, l.resolved) st.v.hashes <;> rfl

/-- C56: the function of a `data_hash` entry is called with the entry's options and the location, if it has not been called
for that location before; and then its answer is remembered for it. -/
theorem C56_data_hash (E : Env) (p : Prov) (n : Str) (loc : Option Loc) (f : Entries → Res (Option Value))
    (hw : WF (.map (p.entry.options.getD []))) (hn : n ≠ "yaml_data".toList ∧ n ≠ "json_data".toList)
    (hf : loadFunction E p.entry n = .ok (some (.hash f))) (st : St)
    (hnew : assoc (p, memoKey loc) st.v.hashes = none) :
    ∃ opts, Sees p loc opts ∧
      (∀ e, f opts = .panic e → ∃ t, dataHash E p n loc st = some (.panic e, t)) ∧
      ∀ o, f opts = .ok o → ∃ t es, dataHash E p n loc st = some (.ok es, t) ∧ (∀ m, o = some (.map m) → es = m) ∧
        ((∀ m, o ≠ some (.map m)) → es = []) ∧ t.v.trace = st.v.trace ++ [.hash n opts] ∧
        dataHash E p n loc t = some (.ok es, t) := by
  have load : ∃ u, loadOnce E p n st = some (.ok (some (.hash f)), u) ∧ u.v.trace = st.v.trace := by
    unfold loadOnce
    rw [hf, M.lift_ok_bind, bind_ok (show view st = some (.ok st.v, st) from rfl)]
    by_cases hl : p.id ∈ st.v.loaded
    · rw [if_pos hl]; exact ⟨st, rfl, rfl⟩
    · rw [if_neg hl]
      exact ⟨{ st with v := { st.v with loaded := p.id :: st.v.loaded } }, rfl, rfl⟩
  obtain ⟨u, hu, h2⟩ := load
  refine ⟨optionsFor p loc, optionsFor_sees p loc hw, ?_, ?_⟩
  · intro e he
    rw [dataHash_run, hnew]
    simp only
    have hc : callHash E p n (optionsFor p loc) st =
        some (.panic e, { u with v := { u.v with trace := u.v.trace ++ [.hash n (optionsFor p loc)] } }) := by
      unfold callHash
      rw [if_neg hn.1, if_neg hn.2, bind_ok hu]
      simp only [he]
      rfl
    rw [bind_panic hc]
    exact ⟨_, rfl⟩
  · intro o he
    have hc : ∃ es, callHash E p n (optionsFor p loc) st =
        some (.ok es, { u with v := { u.v with trace := u.v.trace ++ [.hash n (optionsFor p loc)] } }) ∧
        (∀ m, o = some (.map m) → es = m) ∧ ((∀ m, o ≠ some (.map m)) → es = []) := by
      unfold callHash
      rw [if_neg hn.1, if_neg hn.2, bind_ok hu]
      simp only [he]
      by_cases hm : ∃ m, o = some (.map m)
      · obtain ⟨m, rfl⟩ := hm
        exact ⟨m, rfl, fun _ h => by cases h; rfl, fun h => absurd rfl (h m)⟩
      · refine ⟨[], ?_, fun m h => absurd ⟨m, h⟩ hm, fun _ => rfl⟩
        rcases o with _ | v
        · rfl
        · cases v with
          | map m => exact absurd ⟨m, rfl⟩ hm
          | _ => rfl
    obtain ⟨es, hc, h5, h6⟩ := hc
    generalize hkey : (p, memoKey loc) = key at hnew
    refine ⟨{ u with v := { u.v with trace := u.v.trace ++ [.hash n (optionsFor p loc)], hashes := (key, es) :: u.v.hashes } }, es,
      ?_, h5, h6, by rw [← h2], ?_⟩
    · rw [dataHash_run, hkey, hnew]
      simp only
      rw [bind_ok hc]
      rfl
    · rw [dataHash_run, hkey]
      simp only [assoc, ↓reduceIte]

/-- C56 is false of `data_dig` entries: their functions are passed the invocation and not a context with options, so that
neither the options nor the location make a difference to them. -/
theorem C56_false (E : Env) (rec : Rec) (p : Prov) (n : Str) (k : Key) (opts : Option Entries) (loc loc' : Option Loc)
    (hf : p.entry.function = some (.dataDig, n)) :
    provLookup E rec p loc k = provLookup E rec { p with entry := { p.entry with options := opts } } loc' k := by
  unfold provLookup
  simp only [hf]
  rfl

/-- What a data file gives: nothing if it does not exist, its hash, or an error. -/
inductive Spec.FileGives (file : Str) : FileRes → Res Entries → Prop
  | missing : FileGives file .missing (.ok [])
  | hash {es} : FileGives file (.value (.map es)) (.ok es)
  | other {v} : (∀ es, v ≠ .map es) → FileGives file (.value v) (.panic (.notHash file))
  | error {e} : FileGives file (.err e) (.panic e)

/-- C56: a `yaml_data` entry (and `json_data` likewise) reads the file at the resolved location, once. -/
theorem C56_data_file (E : Env) (p : Prov) (n : Str) (l : Loc) (read : Str → FileRes)
    (hn : (n = "yaml_data".toList ∧ read = E.readYaml) ∨ (n = "json_data".toList ∧ read = E.readJson))
    (hw : WF (.map (p.entry.options.getD []))) (st : St) (hnew : assoc (p, l.resolved) st.v.hashes = none)
    (r : Res Entries) (hr : FileGives l.resolved (read l.resolved) r) :
    ∃ t, dataHash E p n (some l) st = some (r, t) ∧ ∀ es, r = .ok es → dataHash E p n (some l) t = some (.ok es, t) := by
  have hs := (optionsFor_sees p (some l) hw).2
  have hfd : fileData E read (optionsFor p (some l)) = r := by
    unfold fileData
    simp only [hs, Env.toStr]
    generalize hx : read l.resolved = x at hr
    cases hr with
    | missing => rfl
    | hash => rfl
    | other h =>
      rename_i v
      cases v with
      | map es => exact absurd rfl (h es)
      | _ => rfl
    | error => rfl
  have hc : callHash E p n (optionsFor p (some l)) st =
      some (r, { st with v := { st.v with trace := st.v.trace ++ [.hash n (optionsFor p (some l))] } }) := by
    unfold callHash
    rcases hn with ⟨rfl, rfl⟩ | ⟨rfl, rfl⟩
    · rw [if_pos rfl, ← hfd]; rfl
    · rw [if_neg (by decide), if_pos rfl, ← hfd]; rfl
  have hkey : memoKey (some l) = l.resolved := rfl
  cases r with
  | panic e =>
    refine ⟨{ st with v := { st.v with trace := st.v.trace ++ [.hash n (optionsFor p (some l))] } }, ?_, fun _ h => (nomatch h)⟩
    rw [dataHash_run, hkey, hnew]
    simp only
    rw [bind_panic hc]
  | ok es =>
    refine ⟨{ st with v := { st.v with
      trace := st.v.trace ++ [.hash n (optionsFor p (some l))], hashes := ((p, l.resolved), es) :: st.v.hashes } }, ?_, ?_⟩
    · rw [dataHash_run, hkey, hnew]
      simp only
      rw [bind_ok hc]
      rfl
    · intro es' h
      cases h
      rw [dataHash_run, hkey]
      simp only [assoc, ↓reduceIte]

/-- An entry with a function of each kind and options; all functions answer with what they see. -/
def seeWorld : Env :=
  { mk (cfg [.map [(s "name", s "h"), (s "data_hash", s "hf"), (s "path", s "p"), (s "options", .map [(s "o", .int 1)])],
             .map [(s "name", s "k"), (s "lookup_key", s "kf"), (s "path", s "p"), (s "options", .map [(s "o", .int 2)])],
             .map [(s "name", s "d"), (s "data_dig", s "df"), (s "options", .map [(s "o", .int 3)])]]) [] with
    stat := fun p => p = "/h/data/p".toList
    functions := fun n =>
      if n = "hf".toList then some (.hash (fun o => .ok (some (.map [(s "x", .map o)]))))
      else if n = "kf".toList then some (.key (.custom (fun o k => .ret (if k = "y".toList then some (.map o) else none))))
      else if n = "df".toList then some (.dig (fun ps => .ok (some (.int ps.length))))
      else none }

example : ask seeWorld 10 "x" = some (.ok (some (.map [(s "o", .int 1), (s "path", s "/h/data/p")]))) := by decide +kernel
example : ask seeWorld 10 "y" = some (.ok (some (.map [(s "o", .int 2), (s "path", s "/h/data/p")]))) := by decide +kernel

/-! ### C66 -/

/-- C66 is false: asked for `a.b.c`, a `data_dig` function is given one segment only. (It answers with their number, which
is then looked up further with the remaining segments.) -/
theorem C66_false : ask seeWorld 10 "z" = some (.ok (some (.int 1))) ∧
    ((eval seeWorld 10).lookup ⟨"z.b.c".toList, [.name "z".toList, .name "b".toList, .name "c".toList]⟩ [] (st [])).map
      (fun r => (r.1, r.2.v.trace.filterMap (fun e => match e with | .dig n ps => some (n, ps) | _ => none))) =
    some (.ok none, [("df".toList, [.name "lookup_options".toList]), ("df".toList, [.name "z".toList])]) := by decide +kernel

/-- C66, the part that holds: a provider gives the function all segments of the key that the provider is asked for. -/
theorem C66_given_partial (E : Env) (p : Prov) (n : Str) (k : Key) (f : List Part → Res (Option Value)) (st : St)
    (hf : loadFunction E p.entry n = .ok (some (.dig f))) (hl : p.id ∈ st.v.loaded) (ho : st.on = none) (x : Value)
    (hx : f k.parts = .ok (some x)) :
    ∃ t, dataDigLookup E p n k st = some (.ok (some (k.bury x)), t) ∧ t.v.trace = st.v.trace ++ [.dig n k.parts] := by
  obtain ⟨v, on, tr⟩ := st
  simp only at ho hl
  subst ho
  have load : loadOnce E p n ⟨v, none, tr⟩ = some (.ok (some (.dig f)), ⟨v, none, tr⟩) := by
    unfold loadOnce
    rw [hf, M.lift_ok_bind, bind_ok (show view ⟨v, none, tr⟩ = some (.ok v, ⟨v, none, tr⟩) from rfl), if_pos hl]
    rfl
  unfold dataDigLookup
  rw [bind_ok load]
  simp only
  refine ⟨⟨{ v with trace := v.trace ++ [.dig n k.parts] }, none, tr⟩, ?_, rfl⟩
  rw [bind_ok (show emit (.dig n k.parts) ⟨v, none, tr⟩ =
    some (.ok (), ⟨{ v with trace := v.trace ++ [.dig n k.parts] }, none, tr⟩) from rfl), hx, M.lift_ok_bind]
  simp only
  rw [bind_ok (Quiet.off_report rfl)]
  rfl

/-! ### C61 -/

/-- The value of `x` comes from a `lookup_key` function and refers to `y`, which is in a data file. -/
def referWorld : Env :=
  { two [(s "y", .int 1), (s "z", s "%{lookup('y')}")] [] with
    readYaml := fun p =>
      if p = "/h/hiera.yaml".toList then .value (cfg [entry "a" "a.yaml", .map [(s "name", s "k"), (s "lookup_key", s "kf")]])
      else if p = "/h/data/a.yaml".toList then .value (.map [(s "y", .int 1), (s "z", s "%{lookup('y')}")])
      else .missing
    render := fun v => match v with | .int i => (toString i).toList | _ => []
    functions := fun n => if n = "kf".toList then
        some (.key (.custom (fun _ k => .ret (if k = "x".toList then some (s "%{lookup('y')}") else none)))) else none }

/-- C61 is false: a value from a data file may refer to `y`, and the same value from a `lookup_key` function makes the
lookup fail with a nil dereference. -/
theorem C61_false : ask referWorld 10 "z" = some (.ok (some (s "1"))) ∧ ask referWorld 10 "x" = some (.panic .nilDeref) := by
  decide +kernel

/-! ### C65 -/

/-- Data with names that need quotes. -/
def quotedWorld : Env := two [(s "lookup_options", .map [(s "x", .map [(s "merge", s "deep")])]), (s "a.b", .int 1), (s "5", .int 2),
  (s "it's", .int 3), (s "plain", .int 4)] []

/-- The answer of a lookup of the key with the given text. -/
def Spec.askText (E : Env) (n : Nat) (text : String) : Option (Res (Option Value)) :=
  match newKey text.toList with
  | .ok k => ((eval E n).lookup k [] (st [])).map Prod.fst
  | .panic e => some (.panic e)

/-- C65 is false: a quoted name with a dot is not found, and other names make the lookup fail although the key is fine. -/
theorem C65_false : askText quotedWorld 10 "'plain'" = some (.ok (some (.int 4))) ∧
    askText quotedWorld 10 "'a.b'" = some (.ok none) ∧
    askText quotedWorld 10 "'5'" = some (.panic (.firstIndex "5".toList)) ∧
    askText quotedWorld 10 "\"it's\"" = some (.panic (.unterminatedQuote "it's".toList)) := by
  decide +kernel

/-- A consequence: the lookup options, which a lookup must not find, are found with the quoted key `'lookup_options.y'`. -/
theorem C65_discloses_options : askText quotedWorld 10 "'lookup_options.y'" =
    some (.ok (some (.map [(s "x", .map [(s "merge", s "deep")])]))) := by
  decide +kernel

/-- C65, the part that holds: when the first segment needs no quotes, quoting it makes no difference: the configuration is
asked for just that name, and two spellings of a key are looked up alike. -/
theorem C65_plain_partial (E : Env) (n : Nat) (root src : Str) (hu : Unquoted root) (hne : root ≠ []) (hi : ∀ i, ¬IsInt32 root i)
    (hr : root ≠ "lookup_options".toList) :
    newKey root = .ok ⟨root, [.name root]⟩ ∧
    ∀ o st, (eval E n).lookup ⟨src, [.name root]⟩ o st = (eval E n).lookup ⟨root, [.name root]⟩ o st := by
  constructor
  · obtain ⟨ps, h1, h2⟩ := C02_dots [root] (by simpa using hu) (by simp) (by simpa using hne)
      (by simp only [List.head?_cons, Option.some.injEq]; rintro _ rfl; exact hi)
    have e : joinDots [root] = root := by simp [joinDots]
    rw [e] at h1
    rw [h1]
    cases h2 with
    | cons h h' =>
      cases h' with
      | nil =>
        cases h with
        | index i h => exact absurd h (hi i)
        | name => rfl
  · intro o st
    cases n with
    | zero => rfl
    | succ n =>
      show lookup E (eval E n) _ o st = lookup E (eval E n) _ o st
      unfold lookup
      rw [if_neg (show ¬(Key.root ⟨src, [.name root]⟩ = _) from hr), if_neg (show ¬(Key.root ⟨root, [.name root]⟩ = _) from hr)]
      rfl

/-! ### C57 -/

theorem beforeColons_iff (key : Str) : ∀ acc n, beforeColons acc key = some n ↔ ∃ m, n = acc ++ m ∧ BeforeColons key m := by
  have here : ∀ rest m, BeforeColons (':' :: ':' :: rest) m ↔ m = [] := by
    intro rest m
    constructor
    · rintro ⟨_, h⟩
      have := h [] rest rfl
      simpa using this
    · rintro rfl; exact ⟨⟨rest, rfl⟩, by simp⟩
  have skip : ∀ c cs m, (∀ rest, c :: cs ≠ ':' :: ':' :: rest) → (BeforeColons (c :: cs) m ↔ ∃ m', m = c :: m' ∧ BeforeColons cs m') := by
    intro c cs m hc
    constructor
    · rintro ⟨⟨rest, h1⟩, h2⟩
      cases m with
      | nil => exact absurd h1 (hc rest)
      | cons d m =>
        simp only [List.cons_append, List.cons.injEq] at h1
        obtain ⟨rfl, h1⟩ := h1
        refine ⟨m, rfl, ⟨rest, h1⟩, fun n' rest' h => ?_⟩
        have := h2 (c :: n') rest' (by rw [h]; rfl)
        simpa using this
    · rintro ⟨m', rfl, ⟨rest, h1⟩, h2⟩
      refine ⟨⟨rest, by rw [h1]; rfl⟩, fun n' rest' h => ?_⟩
      cases n' with
      | nil => exact absurd h (hc rest')
      | cons d n' =>
        simp only [List.cons_append, List.cons.injEq] at h
        have := h2 n' rest' h.2
        simpa using this
  have go : ∀ N (key : Str), key.length ≤ N → ∀ acc n, beforeColons acc key = some n ↔ ∃ m, n = acc ++ m ∧ BeforeColons key m := by
    intro N
    induction N with
    | zero =>
      intro key hl acc n
      have : key = [] := List.length_eq_zero_iff.1 (by omega)
      subst this
      simp only [beforeColons]
      constructor
      · intro h; cases h
      · rintro ⟨m, rfl, ⟨rest, h⟩, _⟩
        have := congrArg List.length h
        simp at this
    | succ N ih =>
      intro key hl acc n
      match key with
      | [] =>
        simp only [beforeColons]
        constructor
        · intro h; cases h
        · rintro ⟨m, rfl, ⟨rest, h⟩, _⟩
          have := congrArg List.length h
          simp at this
      | c :: cs =>
        by_cases hc : ∃ rest, c :: cs = ':' :: ':' :: rest
        · obtain ⟨rest, h⟩ := hc
          rw [h]
          simp only [beforeColons, Option.some.injEq, here]
          constructor
          · rintro rfl; exact ⟨[], by simp, rfl⟩
          · rintro ⟨m, rfl, rfl⟩; simp
        · have e : beforeColons acc (c :: cs) = beforeColons (acc ++ [c]) cs := by
            rw [beforeColons.eq_def]
            split
            · rename_i h; exact absurd ⟨_, h⟩ hc
            · rename_i h; cases h; rfl
            · rename_i h; cases h
          rw [e, ih cs (by simpa using hl)]
          constructor
          · rintro ⟨m, rfl, h⟩
            exact ⟨c :: m, by simp, (skip c cs _ (fun rest h => hc ⟨rest, h⟩)).2 ⟨m, rfl, h⟩⟩
          · rintro ⟨m, rfl, h⟩
            obtain ⟨m', rfl, h'⟩ := (skip c cs _ (fun rest h => hc ⟨rest, h⟩)).1 h
            exact ⟨m', by simp, h'⟩
  exact go key.length key (Nat.le_refl _)

/-- One directory of the module path. -/
theorem loadModule_of (E : Env) (path name : Str) (hd : CaseDistinct E path) :
    (∀ cp, Holds E name path cp → loadModule E path name = .ok (some cp)) ∧ (Lacks E name path → loadModule E path name = .ok none) := by
  have loop : ∀ es : List (Str × Bool), es.Pairwise (fun a b => toLower a.1 ≠ toLower b.1) →
      (∀ dir, (dir, true) ∈ es → toLower dir = toLower name → E.lstat (moduleFile path dir) = .file →
        findModuleDir E path name es = .ok (some (moduleFile path dir))) ∧
      ((∀ dir, (dir, true) ∈ es → toLower dir = toLower name →
        E.lstat (moduleFile path dir) = .missing ∨ E.lstat (moduleFile path dir) = .dir) → findModuleDir E path name es = .ok none) := by
    intro es
    induction es with
    | nil => exact fun _ => ⟨fun _ h => (nomatch h), fun _ => rfl⟩
    | cons e es ih =>
      intro hp
      obtain ⟨n, isDir⟩ := e
      obtain ⟨hp1, hp2⟩ := List.pairwise_cons.1 hp
      obtain ⟨ih1, ih2⟩ := ih hp2
      unfold findModuleDir
      by_cases hn : toLower n = toLower name
      · rw [if_neg (by simpa using hn)]
        constructor
        · intro dir hm hl hf
          rcases List.mem_cons.1 hm with h | h
          · obtain ⟨rfl, rfl⟩ := Prod.mk.inj h
            show (match E.lstat (moduleFile path dir) with | .missing => _ | .err e => _ | .dir => _ | .file => _) = _
            rw [hf]; rfl
          · exact absurd (hn.trans hl.symm) (hp1 _ h)
        · intro h
          cases isDir with
          | false => rfl
          | true =>
            show (match E.lstat (moduleFile path n) with | .missing => _ | .err e => _ | .dir => _ | .file => _) = _
            rcases h n (by simp) hn with h | h <;> rw [h]
      · rw [if_pos hn]
        constructor
        · intro dir hm hl hf
          rcases List.mem_cons.1 hm with h | h
          · cases h; exact absurd hl hn
          · exact ih1 dir h hl hf
        · exact fun h => ih2 (fun dir hm => h dir (List.mem_cons_of_mem _ hm))
  unfold loadModule
  constructor
  · rintro cp ⟨es, dir, h1, h2, h3, rfl, h5⟩
    rw [h1]
    exact (loop es (hd es h1)).1 dir h2 h3 h5
  · rintro (h | ⟨es, h1, h2⟩)
    · rw [h]
    · rw [h1]
      exact (loop es (hd es h1)).2 h2

/-- C57: the module is found in the first directory of the module path that holds it. -/
theorem C57_found_partial (E : Env) (name : Str) (pre post : List Str) (path cp : Str)
    (hd : ∀ p ∈ pre ++ [path], CaseDistinct E p) (hpre : ∀ p ∈ pre, Lacks E name p) (h : Holds E name path cp) :
    findModule E name (pre ++ path :: post) = .ok (some cp) := by
  induction pre with
  | nil =>
    simp only [List.nil_append, findModule]
    rw [(loadModule_of E path name (hd path (by simp))).1 cp h]
    rfl
  | cons p pre ih =>
    simp only [List.cons_append, findModule]
    rw [(loadModule_of E p name (hd p (by simp))).2 (hpre p (by simp))]
    exact ih (fun q hq => hd q (by simp at hq ⊢; tauto)) (fun q hq => hpre q (by simp [hq]))

/-- C57: the module is not found if no directory of the module path holds it. -/
theorem C57_not_found_partial (E : Env) (name : Str) (mp : List Str) (hd : ∀ p ∈ mp, CaseDistinct E p) (h : ∀ p ∈ mp, Lacks E name p) :
    findModule E name mp = .ok none := by
  induction mp with
  | nil => rfl
  | cons p mp ih =>
    simp only [findModule]
    rw [(loadModule_of E p name (hd p (by simp))).2 (h p (by simp))]
    exact ih (fun q hq => hd q (by simp [hq])) (fun q hq => h q (by simp [hq]))

/-- C57: a directory that cannot be examined, and is reached, is an error of the search rather than a directory without the
module: whatever the directories after it hold, the search does not go on. -/
theorem C57_error_partial (E : Env) (name : Str) (pre post : List Str) (path : Str) (e : Err)
    (hd : ∀ p ∈ pre ++ [path], CaseDistinct E p) (hpre : ∀ p ∈ pre, Lacks E name p) (h : Fails E name path e) :
    findModule E name (pre ++ path :: post) = .panic e := by
  have loop : ∀ es : List (Str × Bool), es.Pairwise (fun a b => toLower a.1 ≠ toLower b.1) →
      ∀ dir, (dir, true) ∈ es → toLower dir = toLower name → E.lstat (moduleFile path dir) = .err e →
        findModuleDir E path name es = .panic e := by
    intro es
    induction es with
    | nil => exact fun _ _ h => (nomatch h)
    | cons x es ih =>
      intro hp dir hm hl hf
      obtain ⟨n, isDir⟩ := x
      obtain ⟨hp1, hp2⟩ := List.pairwise_cons.1 hp
      unfold findModuleDir
      by_cases hn : toLower n = toLower name
      · rw [if_neg (by simpa using hn)]
        rcases List.mem_cons.1 hm with h | h
        · obtain ⟨rfl, rfl⟩ := Prod.mk.inj h
          show (match E.lstat (moduleFile path dir) with | .missing => _ | .err e => _ | .dir => _ | .file => _) = _
          rw [hf]
        · exact absurd (hn.trans hl.symm) (hp1 _ h)
      · rw [if_pos hn]
        rcases List.mem_cons.1 hm with h | h
        · cases h; exact absurd hl hn
        · exact ih hp2 dir h hl hf
  induction pre with
  | nil =>
    have : loadModule E path name = .panic e := by
      unfold loadModule
      rcases h with h | ⟨es, dir, h1, h2, h3, h4⟩
      · rw [h]
      · rw [h1]
        exact loop es (hd path (by simp) es h1) dir h2 h3 h4
    simp only [List.nil_append, findModule, this]
    rfl
  | cons p pre ih =>
    simp only [List.cons_append, findModule]
    rw [(loadModule_of E p name (hd p (by simp))).2 (hpre p (by simp))]
    exact ih (fun q hq => hd q (by simp at hq ⊢; tauto)) (fun q hq => hpre q (by simp [hq]))

/-- C57: the error of the search is the error of the lookup. -/
theorem C57_lookup_error (E : Env) (rec : Rec) (opts : Entries) (key n : Str) (st : St) (h : BeforeColons key n) (hn : n ≠ [])
    (e : Err) (hf : findModule E (toLower n) (E.modulePath.getD []) = .panic e) :
    moduleLookup E rec opts key st = some (.panic e, st) := by
  unfold moduleLookup
  rw [(beforeColons_iff key [] n).2 ⟨n, rfl, h⟩]
  cases n with
  | nil => exact absurd rfl hn
  | cons c n =>
    simp only [hf]
    rfl

/-- C57: a key is looked up in the module that its part before the first `::` names, in the configuration of that module;
nothing is found if there is no such module, or if there is no such part. -/
theorem C57_lookup (E : Env) (rec : Rec) (opts : Entries) (key : Str) (st : St) (ho : st.on = none) :
    (∀ n, BeforeColons key n → n ≠ [] → ∀ cp, findModule E (toLower n) (E.modulePath.getD []) = .ok (some cp) →
      moduleLookup E rec opts key st = configAt E rec cp opts key (toLower n) st) ∧
    (∀ n, BeforeColons key n → n ≠ [] → findModule E (toLower n) (E.modulePath.getD []) = .ok none →
      moduleLookup E rec opts key st = some (.ok none, st)) ∧
    (BeforeColons key [] → moduleLookup E rec opts key st = some (.ok none, st)) ∧
    ((∀ n, ¬BeforeColons key n) → moduleLookup E rec opts key st = some (.ok none, st)) := by
  have bc : ∀ n, BeforeColons key n → beforeColons [] key = some n := fun n h => (beforeColons_iff key [] n).2 ⟨n, rfl, h⟩
  refine ⟨?_, ?_, ?_, ?_⟩
  · intro n h hn cp hf
    unfold moduleLookup
    rw [bc n h]
    cases n with
    | nil => exact absurd rfl hn
    | cons c n =>
      simp only [hf, M.lift_ok_bind]
      rw [Quiet.off_withNode ho]
  · intro n h hn hf
    unfold moduleLookup
    rw [bc n h]
    cases n with
    | nil => exact absurd rfl hn
    | cons c n =>
      simp only [hf, M.lift_ok_bind]
      rw [Quiet.off_withNode ho, bind_ok (Quiet.off_report ho)]
      rfl
  · intro h
    unfold moduleLookup
    rw [bc [] h]
    rfl
  · intro h
    unfold moduleLookup
    have : beforeColons [] key = none := by
      cases hb : beforeColons [] key with
      | none => rfl
      | some n =>
        obtain ⟨m, _, hm⟩ := (beforeColons_iff key [] n).1 hb
        exact absurd hm (h m)
    rw [this]
    rfl

/-- C57: case does not matter. -/
theorem C57_case (E : Env) (a b : Str) (h : toLower a = toLower b) (mp : List Str) : findModule E a mp = findModule E b mp := by
  have dirs : ∀ path es, findModuleDir E path a es = findModuleDir E path b es := by
    intro path es
    induction es with
    | nil => rfl
    | cons e es ih => obtain ⟨n, d⟩ := e; unfold findModuleDir; rw [h, ih]
  induction mp with
  | nil => rfl
  | cons p mp ih =>
    have e : loadModule E p a = loadModule E p b := by unfold loadModule; cases E.readDir p <;> simp only [dirs]
    simp only [findModule, e, ih]

/-- C57: what a search found out is remembered: a later search for the same module has the same outcome, whatever has become
of the files. -/
theorem C57_remembered (pre mid post : List (Env × Str)) (E E' : Env) (name : Str) (mpm : Modules) (i : Nat) (f : Option Str)
    (hi : i = pre.length) (h : (moduleFunctions (pre ++ (E, name) :: mid ++ (E', name) :: post) mpm)[i]? = some (.ok f)) :
    (moduleFunctions (pre ++ (E, name) :: mid ++ (E', name) :: post) mpm)[i + 1 + mid.length]? = some (.ok f) := by
  have keep : ∀ (E : Env) (n : Str) (mpm : Modules) (name : Str) (f : Option Str), assoc name mpm = some f →
      assoc name (moduleFunction E mpm n).2 = some f := by
    intro E n mpm name f hf
    unfold moduleFunction
    cases ha : assoc n mpm with
    | some g => exact hf
    | none =>
      simp only
      cases findModule E n (E.modulePath.getD []) with
      | panic e => exact hf
      | ok g =>
        simp only [assoc]
        rw [if_neg]
        · exact hf
        · rintro rfl; rw [hf] at ha; cases ha
  have later : ∀ (mid : List (Env × Str)) (mpm : Modules), assoc name mpm = some f →
      (moduleFunctions (mid ++ (E', name) :: post) mpm)[mid.length]? = some (.ok f) := by
    intro mid
    induction mid with
    | nil =>
      intro mpm hf
      simp only [List.nil_append, moduleFunctions, List.length_nil, List.getElem?_cons_zero]
      unfold moduleFunction
      rw [hf]
    | cons e mid ih =>
      intro mpm hf
      obtain ⟨Em, n⟩ := e
      simp only [List.cons_append, moduleFunctions, List.length_cons, List.getElem?_cons_succ]
      exact ih _ (keep Em n mpm name f hf)
  induction pre generalizing mpm i with
  | nil =>
    subst hi
    simp only [List.nil_append, List.cons_append, moduleFunctions, List.length_nil, List.getElem?_cons_zero, Option.some.injEq] at h
    have : 0 + 1 + mid.length = mid.length + 1 := by omega
    simp only [List.nil_append, List.cons_append, moduleFunctions, List.length_nil, this, List.getElem?_cons_succ]
    refine later mid _ ?_
    unfold moduleFunction at h ⊢
    cases ha : assoc name mpm with
    | some g => rw [ha] at h; cases h; exact ha
    | none =>
      rw [ha] at h
      simp only at h ⊢
      cases hf : findModule E name (E.modulePath.getD []) with
      | panic e => rw [hf] at h; cases h
      | ok g => rw [hf] at h; cases h; simp [assoc]
  | cons e pre ih =>
    subst hi
    obtain ⟨Ep, n⟩ := e
    simp only [List.cons_append, moduleFunctions, List.length_cons, List.getElem?_cons_succ] at h ⊢
    have e1 : pre.length + 1 + 1 + mid.length = (pre.length + 1 + mid.length) + 1 := by omega
    rw [e1, List.getElem?_cons_succ]
    exact ih _ _ rfl h

/-- Two directories on the module path; the module is in the second. -/
def moduleWorld : Env where
  top := .module
  modulePath := some ["/m".toList, "/n".toList]
  readDir := fun p => if p = "/m".toList then .entries [("other".toList, true)] else if p = "/n".toList then
    .entries [("x".toList, false), ("MyMod".toList, true)] else .missing
  lstat := fun p => if p = "/n/MyMod/hiera.yaml".toList then .file else .missing
  stat := fun p => p = "/n/MyMod/data/d.yaml".toList
  readYaml := fun p =>
    if p = "/n/MyMod/hiera.yaml".toList then .value (cfg [entry "e" "d.yaml"])
    else if p = "/n/MyMod/data/d.yaml".toList then .value (.map [(s "mymod::k", .int 1), (s "MYMOD::k", .int 2)])
    else .missing

example : ask moduleWorld 5 "mymod::k" = some (.ok (some (.int 1))) ∧ ask moduleWorld 5 "MYMOD::k" = some (.ok (some (.int 2))) ∧
    ask moduleWorld 5 "other::k" = some (.ok none) ∧ ask moduleWorld 5 "k" = some (.ok none) := by decide +kernel
example : Holds moduleWorld "mymod".toList "/n".toList "/n/MyMod/hiera.yaml".toList ∧ Lacks moduleWorld "mymod".toList "/m".toList :=
  ⟨⟨_, "MyMod".toList, rfl, by decide, by decide, by decide +kernel, rfl⟩,
   .inr ⟨_, rfl, by intro dir hm hl; simp only [List.mem_singleton, Prod.mk.injEq, and_true] at hm; subst hm; exact absurd hl (by decide)⟩⟩
/-- The first of two directories on the module path cannot be read; the second one holds the module. -/
def unreadableModules : Env := { moduleWorld with readDir := fun p => if p = "/m".toList then .err (.other 13) else moduleWorld.readDir p }
example : Fails unreadableModules "mymod".toList "/m".toList (.other 13) := .inl rfl
example : ask unreadableModules 5 "mymod::k" = some (.panic (.other 13)) ∧ ask unreadableModules 5 "k" = some (.ok none) := by decide +kernel
example : BeforeColons "mymod::k".toList "mymod".toList := by
  obtain ⟨m, h1, h2⟩ := (beforeColons_iff "mymod::k".toList [] "mymod".toList).1 (by decide)
  exact h1 ▸ h2

/-- C57 is false when names of a directory differ only in case: only the first of them counts, in whatever order the
operating system lists them. Here a plain file `MYMOD` hides the module `mymod`. -/
theorem C57_false : ∃ E : Env, Holds E "mymod".toList "/m".toList "/m/mymod/hiera.yaml".toList ∧
    findModule E "mymod".toList ["/m".toList] = .ok none :=
  ⟨{ top := .module
     readDir := fun _ => .entries [("MYMOD".toList, false), ("mymod".toList, true)]
     lstat := fun _ => .file },
   ⟨_, "mymod".toList, rfl, by decide, rfl, by decide +kernel, rfl⟩, by decide +kernel⟩

end Hiera
