/- C101: from the shell to the files and back. -/
import Verif.Spec.Shell
import Verif.Props.Referring
import Verif.Props.Printed

set_option autoImplicit false

namespace Hiera
open Value Spec World

theorem told_first {E : Env} {sc : Scope} {opts : Entries} : ∀ {args : List Str} {vs : List (Option Value)},
    List.Forall₂ (fun n v => NameAnswer E sc opts n (.ok v)) args vs → FirstOf (NameAnswer E sc opts) args (.ok (firstOne vs))
  | _, _, .nil => .none
  | _, some _ :: _, .cons h _ => .found h
  | _, none :: vs, .cons h hs => .next h (told_first hs : FirstOf _ _ (.ok (firstOne vs)))

theorem told_all {E : Env} {sc : Scope} {opts : Entries} {inst : Nat → Value → Bool} {new : Nat → Value → Res Value} :
    ∀ {args : List Str} {vs : List (Option Value)}, List.Forall₂ (fun n v => NameAnswer E sc opts n (.ok v)) args vs →
    AllOf (NameAnswer E sc opts) (fun n v => MemberTyped inst new n v none) args (.ok (allOfThem args vs))
  | _, _, .nil => .nil
  | _, some _ :: _, .cons h hs => .found h .any (told_all hs)
  | _, none :: _, .cons h hs => .missing h (told_all hs)

theorem putAll_allOfThem : ∀ (args : List Str) (vs : List (Option Value)) (es : Entries), args.Nodup →
    (∀ n ∈ args, Entries.containsKey es (.str n) = false) → Entries.putAll es (allOfThem args vs) = es ++ allOfThem args vs
  | [], _, es, _, _ => by simp [allOfThem, Entries.putAll]
  | n :: ns, [], es, _, _ => by simp [allOfThem, Entries.putAll]
  | n :: ns, none :: vs, es, hd, h => putAll_allOfThem ns vs es (List.nodup_cons.1 hd).2 (fun m hm => h m (List.mem_cons_of_mem _ hm))
  | n :: ns, some v :: vs, es, hd, h => by
    show Entries.putAll (Entries.put es (.str n) v) (allOfThem ns vs) = _
    rw [Entries.put_of_not_contains (h n (List.mem_cons_self ..)), putAll_allOfThem ns vs _ (List.nodup_cons.1 hd).2 (fun m hm => ?_)]
    · simp [allOfThem]
    · have h1 := h m (List.mem_cons_of_mem _ hm)
      have h2 : m ≠ n := fun e => (List.nodup_cons.1 hd).1 (e ▸ hm)
      simp only [Entries.containsKey, List.any_append, List.any_cons, List.any_nil, Bool.or_false, Bool.or_eq_false_iff] at h1 ⊢
      exact ⟨h1, by simpa using h2⟩

/-- What `lookup` prints, where the answers for its arguments are known. -/
theorem prints_answers (A : Cli) (he : StatelessEnv A.types.env) (hc : Readable A.types.env) {s : St} (hs : Session A.types.env s) (o : CommandOptions)
    {args : List Str} (hx : ¬Explains o) {dv : Option Value} {vars : Entries} (hp : Prepared A o none dv vars) {opts : Entries} (ho : MergeAsked o.merge opts)
    {P : Str → Option Value → Prop} (key : ∀ a ∈ args, ∃ v, P a v ∧ NameAnswer A.types.env (.nested A.scope (.map vars)) opts a (.ok v)) (hd : args.Nodup) :
    ∃ vs, List.Forall₂ P args vs ∧ ∀ out,
      (∃ n w, lookupAndRender A (eval A.types.env n) o args s.v = some (out, w)) ↔ Prints A o (.ok (shown o.lookupAll args vs dv)) out := by
  have hl := session_locks he hc hs
  have : ∃ vs, List.Forall₂ P args vs ∧
      List.Forall₂ (fun n v => NameAnswer A.types.env (.nested A.scope (.map vars)) opts n (.ok v)) args vs := by
    clear hd
    induction args with
    | nil => exact ⟨[], .nil, .nil⟩
    | cons a args ih =>
      obtain ⟨v, h1, h2⟩ := key a (List.mem_cons_self ..)
      obtain ⟨vs, h3, h4⟩ := ih (fun a h => key a (List.mem_cons_of_mem _ h))
      exact ⟨v :: vs, .cons h1 h3, .cons h2 h4⟩
  obtain ⟨vs, h1, h2⟩ := this
  refine ⟨vs, h1, fun out => ?_⟩
  have hfind : Finds A o (.nested A.scope (.map vars)) none dv args (.ok (shown o.lookupAll args vs dv)) := by
    cases hla : o.lookupAll with
    | true =>
      have := Finds.all (dv := dv) hla rfl ho (told_all (inst := A.types.isInstance) (new := fun t v => A.types.env.newValue t v none) h2)
      dsimp only at this
      rwa [putAll_allOfThem args vs [] hd (fun _ _ => rfl), List.nil_append] at this
    | false =>
      refine .first hla ho (told_first h2) (r' := .ok (shown false args vs dv)) ?_ ?_
      · unfold shown
        cases firstOne vs with
        | none => exact .default
        | some v => exact .found
      · cases shown false args vs dv with
        | none => exact .nothing
        | some v => exact .value .any
  rw [C83_prints A he hc hs o args hx hp out]
  constructor
  · rintro ⟨r, hr1, hr2⟩
    obtain ⟨n, u, e1⟩ := (finds_iff he hs hl _ o none dv args none r).2 hr1
    obtain ⟨m, w, e2⟩ := (finds_iff he hs hl _ o none dv args none _).2 hfind
    have e3 := lookupFor_le A (Nat.le_max_left n m) e1
    rw [lookupFor_le A (Nat.le_max_right n m) e2] at e3
    cases e3
    exact hr2
  · exact fun h => ⟨_, hfind, h⟩

/-- C101: what `lookup` prints is determined by what the documentation says about the files. -/
theorem C101_prints (A : Cli) (he : StatelessEnv A.types.env) {s : St} (hs : Session A.types.env s) (o : CommandOptions) {args : List Str}
    (hx : ¬Explains o) {dv : Option Value} {vars : Entries} (hp : Prepared A o none dv vars) {opts : Entries} (ho : MergeAsked o.merge opts)
    {ls : List Sheet} {K : Str → Prop} {rank : Str → Nat} (hr : Referring A.types.env (.nested A.scope (.map vars)) ls K rank)
    (htop : A.types.env.top = .mux) (hfn : A.types.env.muxFns = some [.config, .env]) (hK : ∀ k, K k → NotEnv k)
    (ha : ∀ a ∈ args, Askable A.types.env (.nested A.scope (.map vars)) ls K opts a) (hd : args.Nodup) :
    ∃ vs, List.Forall₂ (Promised A.types.env (.nested A.scope (.map vars)) ls opts) args vs ∧ ∀ out,
      (∃ n w, lookupAndRender A (eval A.types.env n) o args s.v = some (out, w)) ↔ Prints A o (.ok (shown o.lookupAll args vs dv)) out := by
  have hc : Readable A.types.env := ⟨_, newCfg_levels hr.setup⟩
  have hl := session_locks he hc hs
  have key : ∀ a ∈ args, ∃ v, Promised A.types.env (.nested A.scope (.map vars)) ls opts a v ∧
      NameAnswer A.types.env (.nested A.scope (.map vars)) opts a (.ok v) := fun a h => by
    obtain ⟨root, fs, st, rfl, hk, hf, hb, hm⟩ := ha a h
    obtain ⟨k, v, h1, h2, h3⟩ := C97_referring he hs hl hr hk (.inl ⟨htop, hfn, hK⟩) hb hm hf none
    exact ⟨_, .field h2, .key h1 ((C81_answer _ he hs hl _ none k opts _).1 h3)⟩
  exact prints_answers A he hc hs o hx hp ho key hd

/-- What the server answers, where the answer for the key is known. -/
theorem reply_answer (A : Cli) (he : StatelessEnv A.types.env) (hc : Readable A.types.env) (base : CommandOptions) {s : St} (hs : Session A.types.env s) (hx : ¬Explains base)
    (hla : base.lookupAll = false) {key : Str} (hp : KeptPath ("/lookup/".toList ++ key)) (hk : '\n' ∉ key) (params : List (Str × Str)) (req : List Str)
    {dv : Option Value} {vars : Entries} (hq : Prepared A (restOptions base params req) none dv vars) {opts : Entries}
    (ho : MergeAsked (restOptions base params req).merge opts) {P : Str → Option Value → Prop}
    (ha : ∃ x, P key x ∧ NameAnswer A.types.env (.nested A.scope (.map vars)) opts key (.ok x)) :
    ∃ x, P key x ∧ ∀ r : Response,
      (∃ n w, serve A (eval A.types.env n) base ("/lookup/".toList ++ key) params req s.v = some (r, w)) ↔
        match x.or dv with
        | none => r.code = 404 ∧ r.body = []
        | some y => ∃ out, Written A.render (.value y) "json".toList out ∧ match out with
          | .ok t => r.code = 200 ∧ r.body = t
          | .panic _ => r.code = 500 ∧ r.body = [] := by
  obtain ⟨vs, h1, h2⟩ := prints_answers A he hc hs (restOptions base params req) (args := [key]) hx hq ho (P := P) (fun a h => by
    rwa [List.mem_singleton.1 h]) (by simp)
  cases h1 with
  | @cons _ x _ ws h1 h3 =>
    cases h3
    refine ⟨x, h1, fun r => ?_⟩
    have hsh : shown (restOptions base params req).lookupAll [key] [x] dv = x.or dv := by
      rw [show (restOptions base params req).lookupAll = false from hla]
      cases x <;> rfl
    rw [hsh] at h2
    simp only [serve_key A _ base key params req s.v hp hk]
    have h4 : (∃ n w, (match lookupAndRender A (eval A.types.env n) (restOptions base params req) [key] s.v with
        | none => none
        | some (out, u) => some (answer out, u)) = some (r, w)) ↔ ∃ out, Prints A (restOptions base params req) (.ok (x.or dv)) out ∧ Replies out (r.code, r.body) := by
      simp only [replies_iff]
      constructor
      · rintro ⟨n, w, hn⟩
        cases hl : lookupAndRender A (eval A.types.env n) (restOptions base params req) [key] s.v with
        | none => rw [hl] at hn; cases hn
        | some q =>
          obtain ⟨out, u⟩ := q
          rw [hl] at hn
          cases hn
          exact ⟨out, (h2 out).1 ⟨n, _, hl⟩, rfl⟩
      · rintro ⟨out, h, rfl⟩
        obtain ⟨n, w, hn⟩ := (h2 out).2 h
        exact ⟨n, w, by rw [hn]⟩
    refine h4.trans ?_
    generalize x.or dv = z
    cases z with
    | none =>
      constructor
      · rintro ⟨out, h, hr⟩
        cases h
        obtain ⟨c, b⟩ := r
        cases hr
        exact ⟨rfl, rfl⟩
      · rintro ⟨h, h'⟩
        exact ⟨_, .nothing, by rw [h, h']; exact .nothing⟩
    | some y =>
      have hw := C83_rendering A.render "json".toList (.value y)
      constructor
      · rintro ⟨out, h, hr⟩
        cases h with
        | value h =>
          refine ⟨_, (hw _).1 rfl, ?_⟩
          rw [show renderingOf (restOptions base params req) "yaml" = "json".toList from rfl] at h
          generalize renderTo A.render "json".toList (.value y) = q at h
          obtain ⟨c, b⟩ := r
          cases h <;> cases hr <;> exact ⟨rfl, rfl⟩
      · rintro ⟨out, h, hr⟩
        have e := (hw _).2 h
        cases out with
        | ok t => exact ⟨.ok (true, t), .value (by rw [show renderingOf (restOptions base params req) "yaml" = "json".toList from rfl, e]; exact .ok), by
            rw [hr.1, hr.2]; exact .found⟩
        | panic er => exact ⟨.panic er, .value (by rw [show renderingOf (restOptions base params req) "yaml" = "json".toList from rfl, e]; exact .fails), by
            rw [hr.1, hr.2]; exact .failed⟩

/-- C101 for the server: whatever was requested before, the answer to a request is 200 with what the documentation says about the files, as
JSON, or 404 if that is nothing. -/
theorem C101_served (A : Cli) (he : StatelessEnv A.types.env) (base : CommandOptions) {v : View} (hv : Serving A base v) (hx : ¬Explains base)
    (hla : base.lookupAll = false) {key : Str} (hp : KeptPath ("/lookup/".toList ++ key)) (hk : '\n' ∉ key) (params : List (Str × Str)) (req : List Str)
    {dv : Option Value} {vars : Entries} (hq : Prepared A (restOptions base params req) none dv vars) {opts : Entries}
    (ho : MergeAsked (restOptions base params req).merge opts) {ls : List Sheet} {K : Str → Prop} {rank : Str → Nat}
    (hr : Referring A.types.env (.nested A.scope (.map vars)) ls K rank) (htop : A.types.env.top = .mux)
    (hfn : A.types.env.muxFns = some [.config, .env]) (hK : ∀ k, K k → NotEnv k)
    (ha : Askable A.types.env (.nested A.scope (.map vars)) ls K opts key) :
    ∃ x, Promised A.types.env (.nested A.scope (.map vars)) ls opts key x ∧ ∀ r : Response,
      (∃ n w, serve A (eval A.types.env n) base ("/lookup/".toList ++ key) params req v = some (r, w)) ↔
        match x.or dv with
        | none => r.code = 404 ∧ r.body = []
        | some y => ∃ out, Written A.render (.value y) "json".toList out ∧ match out with
          | .ok t => r.code = 200 ∧ r.body = t
          | .panic _ => r.code = 500 ∧ r.body = [] := by
  have hc : Readable A.types.env := ⟨_, newCfg_levels hr.setup⟩
  obtain ⟨s, hs, rfl⟩ := hv.session
  refine reply_answer A he hc base hs hx hla hp hk params req hq ho ?_
  obtain ⟨root, fs, st, rfl, hkr, hf, hb, hm⟩ := ha
  obtain ⟨k, v, h1, h2, h3⟩ := C97_referring he hs (session_locks he hc hs) hr hkr (.inl ⟨htop, hfn, hK⟩) hb hm hf none
  exact ⟨_, .field h2, .key h1 ((C81_answer _ he hs (session_locks he hc hs) _ none k opts _).1 h3)⟩

/-! ### Not vacuous -/

namespace Shell101
open Referring97 (world sheets keys rank referring stateless nodeData commonData part first)

/-- The command line, with variables in the file `vars.yaml`. -/
def shell : Cli where
  types := ⟨world, fun _ _ => true⟩
  cli := { parseValue := fun _ => .panic (.other 1)
           readFile := fun p => if p = "vars.yaml".toList then .value (.map [(s "node", .map [(s "name", s "web")])]) else .err (.other 2)
           stdin := .empty }
  render := ⟨fun | .value (.str t) => .ok ('"' :: t ++ ['"']) | _ => .ok [], fun | .value (.str t) => .ok (t ++ ['\n']) | _ => .ok [], fun _ => .ok [], fun _ => []⟩
  scope := .map []
  members := fun _ => none

def options : CommandOptions := { varPaths := ["vars.yaml".toList] }

theorem prepared : Prepared shell options none none [(s "node", .map [(s "name", s "web")])] := ⟨rfl, rfl, by decide +kernel⟩

theorem notEnv : ∀ k, k ∈ keys → NotEnv k := fun k hk => by
  simp only [keys, List.mem_cons, List.not_mem_nil, or_false] at hk
  rcases hk with rfl | rfl | rfl | rfl <;> exact ⟨by decide, by decide⟩

theorem askable {a : Str} (ha : a = "app::settings.none".toList ∨ a = "app::settings.url".toList) :
    Askable world Referring97.scope sheets (· ∈ keys) [] a := by
  have hm : ∀ vs, Mergeable "deep".toList vs := fun vs => ⟨by decide, fun h => absurd h (by decide), fun h => absurd h (by decide)⟩
  rcases ha with rfl | rfl
  · exact ⟨"app::settings".toList, ["none".toList], "deep".toList, rfl, by decide, fun f hf => by
      cases List.mem_singleton.1 hf; exact ⟨by unfold Unquoted; decide, by decide, alpha_not_int (by decide)⟩, .said rfl (by decide +kernel), fun vs _ => hm vs⟩
  · exact ⟨"app::settings".toList, ["url".toList], "deep".toList, rfl, by decide, fun f hf => by
      cases List.mem_singleton.1 hf; exact ⟨by unfold Unquoted; decide, by decide, alpha_not_int (by decide)⟩, .said rfl (by decide +kernel), fun vs _ => hm vs⟩

/-- `lookup --vars vars.yaml app::settings.none app::settings.url`. -/
example : ∃ vs, List.Forall₂ (Promised world Referring97.scope sheets []) ["app::settings.none".toList, "app::settings.url".toList] vs ∧ ∀ out,
    (∃ n w, lookupAndRender shell (eval world n) options ["app::settings.none".toList, "app::settings.url".toList] (newInvocation shell.scope none).v =
      some (out, w)) ↔ Prints shell options (.ok (shown false ["app::settings.none".toList, "app::settings.url".toList] vs none)) out :=
  C101_prints shell stateless (.start shell.scope none) options (by unfold Explains; decide) prepared .no referring rfl rfl notEnv
    (fun a ha => askable (by simpa using ha)) (by decide)

/-- What is printed: the address, which is in the data as an alias for text with the host, the port and, in the host, a variable. -/
example : (lookupAndRender shell (eval world 12) options ["app::settings.none".toList, "app::settings.url".toList] (newInvocation shell.scope none).v).map (·.1) =
    some (.ok (true, "http://web.example.com:8080\n".toList)) := by decide +kernel

/-- A server that is started with these options, and a request for the address. -/
example : ∃ x, Promised world Referring97.scope sheets [] "app::settings.url".toList x ∧ ∀ r : Response,
    (∃ n w, serve shell (eval world n) options ("/lookup/".toList ++ "app::settings.url".toList) [] [] (newInvocation shell.scope none).v = some (r, w)) ↔
      match x.or none with
      | none => r.code = 404 ∧ r.body = []
      | some y => ∃ out, Written shell.render (.value y) "json".toList out ∧ match out with
        | .ok t => r.code = 200 ∧ r.body = t
        | .panic _ => r.code = 500 ∧ r.body = [] :=
  C101_served shell stateless options .start (by unfold Explains; decide) rfl ((keptPath_iff _).1 (by decide +kernel)) (by decide) [] [] ⟨rfl, rfl, by decide +kernel⟩ .no
    referring rfl rfl notEnv (askable (.inr rfl))

end Shell101

end Hiera
