/- C60: what the invocations of a session share. -/
import Verif.Model.Session
import Verif.Lemmas.Mono
import Verif.Lemmas.Sim
import Verif.Lemmas.World

set_option autoImplicit false

namespace Hiera
open Value World

/-- The states that a session can be in: invocations are made one after the other, and each makes any number of lookups,
with any outcome. Others may run at the same time. -/
inductive Spec.Session (E : Env) : St → Prop
  | start (scope : Scope) (ex : Option ExplOpts) : Session E (newInvocation scope ex)
  | invocation {s : St} (scope : Scope) (ex : Option ExplOpts) : Session E s → Session E (nextInvocation s scope ex)
  | among {s : St} (ahead : List Ev → Str → Bool) : Session E s → Session E (s.among ahead)
  | lookup {s t : St} {r : Res (Option Value)} (n : Nat) (k : Key) (opts : Entries) : Session E s →
      (eval E n).lookup k opts s = some (r, t) → Session E t

/-- The value, or failure, and the explanation that a lookup gives; `none` if there is no end to it. -/
def Spec.outcome (r : Option (Res (Option Value) × St)) : Option (Res (Option Value) × Tree) := r.map (fun x => (x.1, x.2.tree))

open Spec

/-! ### The parsed configurations stay as they are -/

/-- What has been parsed stays, and what is added is what the file says. -/
def Keeps (E : Env) (v w : View) : Prop := ∀ p, assoc p w.parsed = assoc p v.parsed ∨
  (assoc p v.parsed = none ∧ ∃ c, assoc p w.parsed = some c ∧ newCfg E.cfg p (E.readYaml p) = .ok c)

theorem Keeps.pre (E : Env) : Pre (Keeps E) where
  refl := fun _ _ => .inl rfl
  trans := by
    intro a b c h1 h2 p
    rcases h1 p with h | ⟨h, d, h', h''⟩
    · rw [← h]; exact h2 p
    · rcases h2 p with g | ⟨g, _⟩
      · exact .inr ⟨h, d, g.trans h', h''⟩
      · rw [h'] at g; cases g

theorem Keeps.of_eq {E : Env} {v w : View} (h : w.parsed = v.parsed) : Keeps E v w := fun p => .inl (by rw [h])

theorem Keeps.change (E : Env) : Change E (Keeps E) where
  toPre := Keeps.pre E
  ic := fun _ _ => .of_eq rfl
  nextId := fun _ => .of_eq rfl
  loaded := fun _ _ => .of_eq rfl
  dig := fun _ _ _ => .of_eq rfl
  key := fun _ _ _ _ => .of_eq rfl
  hash := fun p n loc _ => Mono.dataHash (Keeps.pre E) (fun _ _ => .of_eq rfl) (fun _ _ _ => .of_eq rfl) (fun _ _ => .of_eq rfl) p n loc
  config := Mono.loadConfig (Keeps.pre E) (fun _ _ => .of_eq rfl)
    (by
      intro v path c hv hc p
      by_cases hp : p = path
      · subst hp
        exact .inr ⟨hv, c, by simp [assoc], hc⟩
      · exact .inl (by simp [assoc, hp]))
    (fun _ _ => .of_eq rfl)
  configs := fun _ _ _ => .of_eq rfl
  cache := fun _ _ _ => .of_eq rfl

/-- C60: whatever a lookup does and however it ends, a parsed configuration of the session stays as it was, and one that
is added is what its file says. -/
theorem C60_kept (E : Env) (n : Nat) (k : Key) (opts : Entries) {s t : St} {r : Res (Option Value)}
    (h : (eval E n).lookup k opts s = some (r, t)) (path : Str) :
    assoc path t.v.parsed = assoc path s.v.parsed ∨
      (assoc path s.v.parsed = none ∧ ∃ c, assoc path t.v.parsed = some c ∧ newCfg E.cfg path (E.readYaml path) = .ok c) :=
  (Mono.eval (Keeps.change E) n).lookup k opts s r t h path

/-- C60: in every session, however many invocations with whatever variables it has seen, the parsed configurations are
those of the files: nothing of an invocation has got into them. -/
theorem C60_as_parsed (E : Env) {s : St} (h : Session E s) (path : Str) (c : Cfg) (hc : assoc path s.v.parsed = some c) :
    newCfg E.cfg path (E.readYaml path) = .ok c := by
  induction h with
  | start => cases hc
  | invocation _ _ _ ih => exact ih hc
  | among _ _ ih => exact ih hc
  | lookup n k opts _ hl ih =>
    rcases C60_kept E n k opts hl path with h | ⟨_, d, hd, hd'⟩
    · exact ih (by rw [← h]; exact hc)
    · rw [hc] at hd; cases hd; exact hd'

/-! ### Invocations do not influence each other -/

/-- Memories of a session that has parsed configurations, and of another. -/
def Fellow (E : Env) (x y : Mem) : Prop :=
  x.hashes = y.hashes ∧ x.loaded = y.loaded ∧
  (∀ p c, assoc p x.parsed = some c → newCfg E.cfg p (E.readYaml p) = .ok c) ∧
  (∀ p c, assoc p y.parsed = some c → newCfg E.cfg p (E.readYaml p) = .ok c) ∧
  x.locked = [] ∧ y.locked = []

theorem Sim.viewBindI {I : Mem → Mem → Prop} {Q : Option ExplOpts → Prop} {β : Type} {f f' : View → M β}
    (h : ∀ v x, I v.mem x → Sim I Q β (f v) (f' (v.withMem x))) : Sim I Q β (view >>= f) (view >>= f') :=
  fun s x hq hi => h s.v x hi s x hq hi

theorem Fellow.loadOnce (E : Env) (p : Prov) (n : Str) : Sim (Fellow E) (fun _ => True) _ (loadOnce E p n) (loadOnce E p n) := by
  have c : Core (Sim (Fellow E) (fun _ => True)) := Sim.core
  unfold Hiera.loadOnce
  refine c.bind (c.lift _) (fun f => Sim.viewBindI (fun v x hi => ?_))
  have e : (v.withMem x).loaded = v.loaded := hi.2.1.symm
  rw [e]
  by_cases hm : p.id ∈ v.loaded
  · simp only [hm, ↓reduceIte]; exact c.pure _
  · simp only [hm, ↓reduceIte]
    refine c.bind ?_ (fun _ => c.bind (Sim.update (fun v y h => ⟨{ y with loaded := p.id :: y.loaded }, rfl,
      h.1, congrArg (p.id :: ·) h.2.1, h.2.2⟩)) (fun _ => c.pure _))
    cases f
    · exact c.report _ (by grows)
    · exact c.pure _

theorem Fellow.emit (E : Env) (e : Ev) : Sim (Fellow E) (fun _ => True) _ (emit e) (emit e) :=
  Sim.update (fun _ y hi => ⟨{ y with trace := y.trace ++ [e] }, rfl, hi⟩)

theorem Fellow.dataHash (E : Env) (p : Prov) (n : Str) (loc : Option Loc) :
    Sim (Fellow E) (fun _ => True) _ (dataHash E p n loc) (dataHash E p n loc) := by
  have c : Core (Sim (Fellow E) (fun _ => True)) := Sim.core
  unfold Hiera.dataHash
  refine Sim.viewBindI (fun v x hi => ?_)
  have e : (v.withMem x).hashes = v.hashes := hi.1.symm
  rw [e]
  cases assoc (p, match loc with | some l => l.resolved | none => []) v.hashes with
  | some d => exact c.pure _
  | none =>
    refine c.bind ?_ (fun d => c.bind (Sim.update (fun v y h => ⟨{ y with hashes := ((p, match loc with | some l => l.resolved | none => []), d) :: y.hashes }, rfl,
      congrArg (List.cons _) h.1, h.2⟩)) (fun _ => c.pure _))
    unfold Hiera.callHash
    split
    · exact c.bind (Fellow.emit E _) (fun _ => c.lift _)
    · split
      · exact c.bind (Fellow.emit E _) (fun _ => c.lift _)
      · refine c.bind (Fellow.loadOnce E _ _) (fun f => ?_)
        cases f with
        | none => exact c.pure _
        | some f =>
          cases f with
          | hash f =>
            refine c.bind (Fellow.emit E _) (fun _ => c.bind (c.lift _) (fun r => ?_))
            split <;> exact c.pure _
          | _ => exact c.panic _

theorem loadConfig_parsed {E : Env} {path : Str} {s : St} {c : Cfg}
    (h : (assoc path s.v.parsed).or (elsewhere E s.v path) = some c) :
    loadConfig E path s = some (.ok c, s) := by
  unfold Hiera.loadConfig
  rw [bind_ok (show view s = some (.ok s.v, s) from rfl)]
  simp only [h]
  rfl

theorem loadConfig_ok {E : Env} {path : Str} {s : St} {c : Cfg}
    (h : (assoc path s.v.parsed).or (elsewhere E s.v path) = none) (hl : s.v.locked = [])
    (hc : newCfg E.cfg path (E.readYaml path) = .ok c) :
    loadConfig E path s = some (.ok c, { s with v := { s.v with trace := s.v.trace ++ [.config path], parsed := (path, c) :: s.v.parsed } }) := by
  unfold Hiera.loadConfig
  rw [bind_ok (show view s = some (.ok s.v, s) from rfl)]
  have hm : path ∉ s.v.locked := by rw [hl]; exact List.not_mem_nil
  simp only [h, if_neg hm, hc]
  rfl

theorem loadConfig_panic {E : Env} {path : Str} {s : St} {e : Err}
    (h : (assoc path s.v.parsed).or (elsewhere E s.v path) = none) (hl : s.v.locked = [])
    (hc : newCfg E.cfg path (E.readYaml path) = .panic e) :
    loadConfig E path s = some (.panic e, { s with v := { s.v with trace := s.v.trace ++ [.config path], locked := path :: s.v.locked } }) := by
  unfold Hiera.loadConfig
  rw [bind_ok (show view s = some (.ok s.v, s) from rfl)]
  have hm : path ∉ s.v.locked := by rw [hl]; exact List.not_mem_nil
  simp only [h, if_neg hm, hc]
  rfl

theorem parsed_cons {E : Env} {path : Str} {c : Cfg} {l : List (Str × Cfg)} (hc : newCfg E.cfg path (E.readYaml path) = .ok c)
    (h : ∀ p c, assoc p l = some c → newCfg E.cfg p (E.readYaml p) = .ok c) (p : Str) (d : Cfg)
    (hd : assoc p ((path, c) :: l) = some d) : newCfg E.cfg p (E.readYaml p) = .ok d := by
  by_cases hp : p = path
  · subst hp
    simp only [assoc, ↓reduceIte] at hd
    cases hd
    exact hc
  · simp only [assoc, hp, ↓reduceIte] at hd
    exact h p d hd

/-- What is there, by this invocation or another, is what the file says. -/
theorem found_ok {E : Env} {l : List (Str × Cfg)} {v : View} {path : Str} {c : Cfg}
    (h : ∀ p c, assoc p l = some c → newCfg E.cfg p (E.readYaml p) = .ok c)
    (hc : (assoc path l).or (elsewhere E v path) = some c) : newCfg E.cfg path (E.readYaml path) = .ok c :=
  (Option.or_eq_some_iff.1 hc).elim (h path c) (fun h => elsewhere_ok h.2)

theorem Fellow.loadConfig (E : Env) (path : Str) :
    Sim (Fellow E) (fun _ => True) _ (loadConfig E path) (loadConfig E path) := by
  intro s x _ hi
  obtain ⟨h1, h2, h3, h4, h5, h6⟩ := hi
  cases hn : newCfg E.cfg path (E.readYaml path) with
  | ok c =>
    refine .inr (.inl ?_)
    cases ha : (assoc path s.v.parsed).or (elsewhere E s.v path) with
    | some c' =>
      have e := found_ok h3 ha
      rw [hn] at e; cases e
      rw [loadConfig_parsed ha]
      cases hb : (assoc path (s.withMem x).v.parsed).or (elsewhere E (s.withMem x).v path) with
      | some c'' =>
        have e := found_ok h4 hb
        rw [hn] at e; cases e
        rw [loadConfig_parsed hb]
        exact ⟨c, s, x, rfl, rfl, rfl, h1, h2, h3, h4, h5, h6⟩
      | none =>
        rw [loadConfig_ok hb h6 hn]
        exact ⟨c, s, { x with trace := x.trace ++ [.config path], parsed := (path, c) :: x.parsed }, rfl, rfl, rfl, h1, h2, h3, parsed_cons hn h4, h5, h6⟩
    | none =>
      rw [loadConfig_ok ha h5 hn]
      cases hb : (assoc path (s.withMem x).v.parsed).or (elsewhere E (s.withMem x).v path) with
      | some c'' =>
        have e := found_ok h4 hb
        rw [hn] at e; cases e
        rw [loadConfig_parsed hb]
        exact ⟨c, _, x, rfl, rfl, rfl, h1, h2, parsed_cons hn h3, h4, h5, h6⟩
      | none =>
        rw [loadConfig_ok hb h6 hn]
        exact ⟨c, _, { x with trace := x.trace ++ [.config path], parsed := (path, c) :: x.parsed }, rfl, rfl, rfl, h1, h2, parsed_cons hn h3, parsed_cons hn h4, h5, h6⟩
  | panic e =>
    have ha : (assoc path s.v.parsed).or (elsewhere E s.v path) = none := by
      cases ha : (assoc path s.v.parsed).or (elsewhere E s.v path) with
      | none => rfl
      | some c' => have e := found_ok h3 ha; rw [hn] at e; cases e
    have hb : (assoc path (s.withMem x).v.parsed).or (elsewhere E (s.withMem x).v path) = none := by
      cases hb : (assoc path (s.withMem x).v.parsed).or (elsewhere E (s.withMem x).v path) with
      | none => rfl
      | some c' => have e := found_ok h4 hb; rw [hn] at e; cases e
    refine .inr (.inr ?_)
    rw [loadConfig_panic ha h5 hn, loadConfig_panic hb h6 hn]
    exact ⟨e, _, { x with trace := x.trace ++ [.config path], locked := path :: x.locked }, rfl, rfl⟩

theorem Fellow.ok (E : Env) : SimOk E (Fellow E) (fun _ => True) where
  none := trivial
  forData := fun _ _ => trivial
  forOptions := fun _ _ => trivial
  emit := fun _ _ _ h => h
  loadOnce := Fellow.loadOnce E
  dataHash := fun p n loc _ => Fellow.dataHash E p n loc
  loadConfig := Fellow.loadConfig E

/-- A new invocation among others, and one in a new session: the outcome and the explanation of what they run are the
same if this goes for memories that have parsed configurations. -/
theorem Fellow.alone (E : Env) {s : St} (hs : Session E s) (hl : s.v.locked = []) (scope : Scope) (ex : Option ExplOpts)
    (ahead : List Ev → Str → Bool) {α : Type} {m : M α} (hm : Sim (Fellow E) (fun _ => True) α m m) :
    (m ((nextInvocation s scope ex).among ahead)).map (fun x => (x.1, x.2.tree)) =
      (m { (newInvocation scope ex) with v := { (newInvocation scope ex).v with cache := s.v.cache } }).map (fun x => (x.1, x.2.tree)) := by
  have h := hm
    { (newInvocation scope ex) with v := { (newInvocation scope ex).v with cache := s.v.cache } }
    ⟨[], [], s.v.parsed, s.v.locked, s.v.trace, ahead⟩ trivial
    ⟨rfl, rfl, (by intro p c h; cases h), fun p c hc => C60_as_parsed E hs p c hc, rfl, hl⟩
  have e : St.withMem { (newInvocation scope ex) with v := { (newInvocation scope ex).v with cache := s.v.cache } }
    ⟨[], [], s.v.parsed, s.v.locked, s.v.trace, ahead⟩ = (nextInvocation s scope ex).among ahead := rfl
  rw [e] at h
  rcases h with ⟨h1, h2⟩ | ⟨a, t, y, h1, h2, _⟩ | ⟨er, t, y, h1, h2⟩
  · rw [h1, h2]
  · rw [h1, h2]; rfl
  · rw [h1, h2]; rfl

/-- C60, partially: as long as no configuration of the session has failed to load, the outcome and the explanation of a
lookup of a new invocation are what they are in a new session, whatever other invocations the session has seen, with
whatever variables. The functions' cache is the same: it is meant to be shared. Missing: a configuration that failed
to load makes later invocations of the session wait forever (`C60_false`). -/
theorem C60_independent_partial (E : Env) {s : St} (hs : Session E s) (hl : s.v.locked = []) (scope : Scope) (ex : Option ExplOpts)
    (n : Nat) (k : Key) (opts : Entries) :
    outcome ((eval E n).lookup k opts (nextInvocation s scope ex)) =
      outcome ((eval E n).lookup k opts
        { (newInvocation scope ex) with v := { (newInvocation scope ex).v with cache := s.v.cache } }) :=
  Fellow.alone E hs hl scope ex (fun _ _ => false) ((Sim.eval (Fellow.ok E) n).lookup k opts)

/-- Where a configuration failed to load, lookups that need it have no end. -/
theorem C60_hangs (E : Env) (s : St) (ht : E.top = .config) (hl : E.configPath ∈ s.v.locked)
    (hp : assoc E.configPath s.v.parsed = none) (hc : assoc E.configPath s.v.configs = none)
    (hf : ∀ c, newCfg E.cfg E.configPath (E.readYaml E.configPath) ≠ .ok c)
    (n : Nat) (k : Key) (hk : k.root ≠ "lookup_options".toList) (o : Entries) :
    (eval E n).lookup k o s = none := by
  cases n with
  | zero => rfl
  | succ n =>
    show lookup E (eval E n) k o s = none
    unfold lookup
    rw [if_neg hk, ht]
    refine bind_none ?_
    show configAt E (eval E n) E.configPath o k.root [] s = none
    refine bind_none ?_
    unfold config
    rw [bind_ok (show view s = some (.ok s.v, s) from rfl)]
    have : (if E.configPath = [] then E.configPath else E.configPath) = E.configPath := by split <;> rfl
    simp only [this, hc]
    refine bind_none ?_
    unfold loadConfig
    rw [bind_ok (show view s = some (.ok s.v, s) from rfl)]
    have he : elsewhere E s.v E.configPath = none := Option.eq_none_iff_forall_ne_some.2 (fun c h => hf c (elsewhere_ok h))
    simp only [hp, he, Option.or_none, if_pos hl]
    rfl

/-- A session whose configuration is not a map. -/
def brokenWorld : Env := mk (.int 3) []

/-- C60 fails after a configuration failed to load: there, a lookup of a new invocation has no end, while in a new session
it fails. -/
theorem C60_false : ∃ (E : Env) (s : St), Session E s ∧ ∃ (k : Key) (scope : Scope),
    (∀ n, outcome ((eval E n).lookup k [] (nextInvocation s scope none)) = none) ∧
    ∃ n e t, outcome ((eval E n).lookup k [] (newInvocation scope none)) = some (.panic e, t) := by
  have h : (match (eval brokenWorld 1).lookup ⟨"x".toList, [.name "x".toList]⟩ [] (newInvocation (.map []) none) with
    | some (.panic _, t) => decide (t.v.locked = ["/h/hiera.yaml".toList]) && (t.v.parsed.isEmpty)
    | _ => false) = true := by decide +kernel
  cases hr : (eval brokenWorld 1).lookup ⟨"x".toList, [.name "x".toList]⟩ [] (newInvocation (.map []) none) with
  | none => rw [hr] at h; cases h
  | some x =>
    obtain ⟨a | e, t⟩ := x
    · rw [hr] at h; cases h
    · rw [hr] at h
      simp only [Bool.and_eq_true, decide_eq_true_eq, List.isEmpty_iff] at h
      refine ⟨brokenWorld, t, .lookup 1 _ [] (.start (.map []) none) hr, ⟨"x".toList, [.name "x".toList]⟩, .map [],
        fun n => ?_, 1, e, t.tree, by rw [hr]; rfl⟩
      rw [C60_hangs brokenWorld _ rfl _ _ rfl (fun c h => by cases h) n _ (by decide +kernel) []]
      · rfl
      · show _ ∈ t.v.locked
        rw [h.1]; exact List.mem_singleton.2 rfl
      · show assoc _ t.v.parsed = none
        rw [h.2]; rfl

/-- A hierarchy whose path depends on a variable. -/
def variedWorld : Env :=
  mk (cfg [entry "a" "%{e}.yaml"]) [("/h/data/1.yaml".toList, .map [(s "x", s "one")]), ("/h/data/2.yaml".toList, .map [(s "x", s "two")])]

/-- Not vacuous: an invocation has looked something up with its variable, the configuration is parsed and nothing failed;
another invocation with another value of the variable has another answer. -/
example : ∃ t, Session variedWorld t ∧ t.v.locked = [] ∧ (assoc "/h/hiera.yaml".toList t.v.parsed).isSome = true ∧
    (outcome ((eval variedWorld 2).lookup ⟨"x".toList, [.name "x".toList]⟩ [] (newInvocation (.map [(s "e", s "1")]) none))).map (·.1) =
      some (.ok (some (s "one"))) ∧
    (outcome ((eval variedWorld 2).lookup ⟨"x".toList, [.name "x".toList]⟩ [] (nextInvocation t (.map [(s "e", s "2")]) none))).map (·.1) =
      some (.ok (some (s "two"))) := by
  have h : (match (eval variedWorld 2).lookup ⟨"x".toList, [.name "x".toList]⟩ [] (newInvocation (.map [(s "e", s "1")]) none) with
    | some (.ok v, t) => decide (v = some (s "one")) && t.v.locked.isEmpty && (assoc "/h/hiera.yaml".toList t.v.parsed).isSome && decide
        ((outcome ((eval variedWorld 2).lookup ⟨"x".toList, [.name "x".toList]⟩ [] (nextInvocation t (.map [(s "e", s "2")]) none))).map (·.1) =
          some (.ok (some (s "two"))))
    | _ => false) = true := by decide +kernel
  cases hr : (eval variedWorld 2).lookup ⟨"x".toList, [.name "x".toList]⟩ [] (newInvocation (.map [(s "e", s "1")]) none) with
  | none => rw [hr] at h; cases h
  | some y =>
    obtain ⟨a | e, t⟩ := y
    · rw [hr] at h
      simp only [Bool.and_eq_true, decide_eq_true_eq, List.isEmpty_iff] at h
      exact ⟨t, .lookup 2 _ [] (.start _ none) hr, h.1.1.2, h.1.2, by rw [h.1.1.1]; rfl, h.2⟩
    · rw [hr] at h; cases h

end Hiera
