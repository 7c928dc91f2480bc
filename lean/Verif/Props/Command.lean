/- The command line and the flags of the server. -/
import Verif.Model.Command

set_option autoImplicit false

namespace Hiera.Command

/-- The value of the last flag of a kind, else the default. -/
def Spec.lastOf {α : Type} (sel : Flag → Option α) (flags : List Flag) (dflt : α) : α :=
  match (flags.filterMap sel).getLast? with
  | some v => v
  | none => dflt

/-- The values of all flags of a kind. -/
def Spec.allOf {α : Type} (sel : Flag → Option α) (flags : List Flag) : List α := flags.filterMap sel

open Spec

theorem lastOf_append {α : Type} (sel : Flag → Option α) (flags : List Flag) (f : Flag) (d : α) :
    lastOf sel (flags ++ [f]) d = (sel f).getD (lastOf sel flags d) := by
  unfold lastOf
  rw [List.filterMap_append]
  cases h : sel f with
  | none => simp [h]
  | some v => simp [h]

/-- What the flags mean. -/
structure Spec.Says (flags : List Flag) (r : Run) : Prop where
  merge : r.opts.merge = lastOf (fun | .merge v => some v | _ => none) flags "first".toList
  type : r.opts.type = lastOf (fun | .type v => some v | _ => none) flags []
  renderAs : r.opts.renderAs = lastOf (fun | .renderAs v => some v | _ => none) flags []
  /-- no default is something else than an empty one -/
  default : r.opts.default = lastOf (fun | .default v => some (some v) | _ => none) flags none
  explain : r.opts.explainData = lastOf (fun | .explain v => some v | _ => none) flags false
  explainOptions : r.opts.explainOptions = lastOf (fun | .explainOptions v => some v | _ => none) flags false
  all : r.opts.lookupAll = lastOf (fun | .all v => some v | _ => none) flags false
  vars : r.opts.varPaths = allOf (fun | .vars v => some v | _ => none) flags
  var : r.opts.vars = allOf (fun | .var v => some v | _ => none) flags
  facts : r.opts.factPaths = allOf (fun | .facts v => some v | _ => none) flags
  dialect : r.dialect = lastOf (fun | .dialect v => some v | _ => none) flags "pcore".toList
  config : r.config = match lastOf (fun | .config v => some v | _ => none) flags [] with
    | [] => none
    | p => some p

/-- The same, for the variables. -/
structure Set (d : Option Str) (flags : List Flag) (g : Globals) : Prop where
  merge : g.cmdOpts.merge = lastOf (fun | .merge v => some v | _ => none) flags "first".toList
  type : g.cmdOpts.type = lastOf (fun | .type v => some v | _ => none) flags []
  renderAs : g.cmdOpts.renderAs = lastOf (fun | .renderAs v => some v | _ => none) flags []
  default : g.dflt = lastOf (fun | .default v => some (some v) | _ => none) flags d
  explain : g.cmdOpts.explainData = lastOf (fun | .explain v => some v | _ => none) flags false
  explainOptions : g.cmdOpts.explainOptions = lastOf (fun | .explainOptions v => some v | _ => none) flags false
  all : g.cmdOpts.lookupAll = lastOf (fun | .all v => some v | _ => none) flags false
  vars : g.cmdOpts.varPaths = allOf (fun | .vars v => some v | _ => none) flags
  var : g.cmdOpts.vars = allOf (fun | .var v => some v | _ => none) flags
  facts : g.cmdOpts.factPaths = allOf (fun | .facts v => some v | _ => none) flags
  dialect : g.dialect = lastOf (fun | .dialect v => some v | _ => none) flags "pcore".toList
  config : g.configPath = lastOf (fun | .config v => some v | _ => none) flags []

theorem Set.step {d : Option Str} {flags : List Flag} {g : Globals} (h : Set d flags g) (f : Flag) : Set d (flags ++ [f]) (f.set g) := by
  obtain ⟨a, b, c, d, e, i, j, k, l, m, n, o⟩ := h
  constructor <;> (cases f <;> simp [Flag.set, lastOf_append, allOf, List.filterMap_append] <;> first | assumption | (simp_all [allOf]))

theorem Set.fold {d : Option Str} (more flags : List Flag) (g : Globals) (h : Set d flags g) : Set d (flags ++ more) (more.foldl Flag.set g) := by
  induction more generalizing flags g with
  | nil => simpa using h
  | cons f more ih =>
    have := ih (flags ++ [f]) (f.set g) (h.step f)
    simpa using this

/-- **C75**: every execution stands for itself: what it asks for is what its flags say, whatever has been executed
before. For a flag given more than once the last one counts, except for those that make lists. -/
theorem C75_execute (flags : List Flag) (g : Globals) : Says flags (executeLookup flags g).2 := by
  have h0 : Set none [] (newCommand { g with cmdOpts := {}, dflt := none, logLevel := [], configPath := [] }) := by
    constructor <;> rfl
  have h := Set.fold flags [] _ h0
  rw [List.nil_append] at h
  unfold executeLookup execute cmdLookup
  dsimp only
  refine ⟨h.merge, h.type, h.renderAs, h.default, h.explain, h.explainOptions, h.all, h.vars, h.var, h.facts, h.dialect, ?_⟩
  dsimp only
  rw [h.config]
  generalize lastOf _ flags [] = p
  cases p <;> rfl

example : (executeLookup [.var "a=1".toList, .default [], .merge "deep".toList, .var "b=2".toList, .merge "hash".toList]
      { dflt := some "old".toList, cmdOpts := { vars := ["x".toList], lookupAll := true } }).2.opts =
    { merge := "hash".toList, default := some [], vars := ["a=1".toList, "b=2".toList] } := rfl

/-- **C75** for a command that is created and executed without `ExecuteLookup`: what it asks for is what its flags say, whatever has been
executed before, except that without a default value it is given the one of before. -/
theorem C75_command (flags : List Flag) (g : Globals) :
    (∃ r : Run, Says flags r ∧ (execute flags (newCommand g)).2 =
      { r with opts := { r.opts with default := lastOf (fun | .default v => some (some v) | _ => none) flags g.dflt } }) := by
  have h0 : Set g.dflt [] (newCommand g) := by constructor <;> rfl
  have h := Set.fold flags [] _ h0
  rw [List.nil_append] at h
  refine ⟨{ (execute flags (newCommand g)).2 with opts := { (execute flags (newCommand g)).2.opts with
      default := lastOf (fun | .default v => some (some v) | _ => none) flags none } }, ?_, ?_⟩
  · unfold execute cmdLookup
    dsimp only
    refine ⟨h.merge, h.type, h.renderAs, rfl, h.explain, h.explainOptions, h.all, h.vars, h.var, h.facts, h.dialect, ?_⟩
    dsimp only
    rw [h.config]
    generalize lastOf _ flags [] = p
    cases p <;> rfl
  · unfold execute cmdLookup
    dsimp only
    rw [h.default]

/-- A command that is created and executed without `ExecuteLookup` is given the default value of the one before. -/
theorem C75_new_command : (execute [] (newCommand (execute [.default "x".toList] (newCommand {})).1)).2.opts.default = some "x".toList := rfl

/-- **C75**, the dialect: it is the last one asked for, which must be one of the two that there are. -/
theorem C75_dialect (flags : List Flag) (g : Globals) (d : Dialect) :
    dialectOf (some (.str (executeLookup flags g).2.dialect)) = .ok d ↔
      lastOf (fun | .dialect v => some v | _ => none) flags "pcore".toList = (match d with | .dgo => "dgo" | .pcore => "pcore").toList := by
  rw [(C75_execute flags g).dialect]
  generalize lastOf _ flags "pcore".toList = s
  unfold dialectOf
  dsimp only
  constructor
  · intro h
    split at h
    · cases h; assumption
    · split at h
      · cases h; assumption
      · cases h
  · rintro rfl
    cases d <;> rfl

/-- **C76**: with a certificate and a key, a server that is told to verify its clients verifies all of them, by the
authorities that it is given, or does not serve at all. -/
theorem C76_verified_partial (keyPair : Str → Str → Bool) (certPool : Str → Bool) (f : ServerFlags) (hv : f.clientCertVerify = true)
    (hc : f.sslCert ≠ []) (hk : f.sslKey ≠ []) :
    startServer keyPair certPool f = .no ∨
    startServer keyPair certPool f = .tls { verifyClients := true, authorities := match f.clientCA with
      | [] => none
      | ca => some ca } := by
  unfold startServer makeTLSconfig
  rw [if_neg (by simp [hc, hk]), hv]
  dsimp only
  cases keyPair f.sslCert f.sslKey with
  | false => exact .inl rfl
  | true =>
    simp only [Bool.true_eq_false, if_false]
    cases h : f.clientCA with
    | nil => exact .inr rfl
    | cons c cs =>
      simp only [ne_eq, reduceCtorEq, not_false_eq_true, if_true]
      cases certPool (c :: cs)
      · exact .inl rfl
      · exact .inr rfl

example : startServer (fun _ _ => true) (fun _ => true) { sslKey := "k".toList, sslCert := "c".toList, clientCA := "ca".toList, clientCertVerify := true } =
    .tls { verifyClients := true, authorities := some "ca".toList } := by decide +kernel

/-- **C76** does not hold as it stands: without a key or a certificate the server serves everyone in the clear, although
it is told to verify its clients. -/
theorem C76_clear (keyPair : Str → Str → Bool) (certPool : Str → Bool) (f : ServerFlags) (h : f.sslCert = [] ∨ f.sslKey = []) :
    startServer keyPair certPool f = .clear := by
  unfold startServer makeTLSconfig
  rw [if_pos h]

/-- A server that is told to verify its clients, and that is not given its key. -/
theorem C76_false : startServer (fun _ _ => true) (fun _ => true)
    { sslCert := "c".toList, clientCA := "ca".toList, clientCertVerify := true } = .clear := by decide +kernel

end Hiera.Command
