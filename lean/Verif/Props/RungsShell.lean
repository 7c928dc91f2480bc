import Verif.Props.Rungs
import Verif.Props.Shell

/-!
# C119 from the shell, and of the server
-/

set_option autoImplicit false

namespace Hiera

open Value Spec World

/-- What the files of the levels give for a name. -/
inductive Spec.GivenBy (E : Env) (sc : Scope) (rs : List Rung) (opts : Entries) : Str → Option Value → Prop
  | field {root st : Str} {fs : List Str} {v : Option Value} : StrategySaid (levelsIn E sc rs) root opts st →
      Textbook st (valuesOf (levelsIn E sc rs) root) v → GivenBy E sc rs opts (joinDots (root :: fs)) (v.bind (fieldOf fs))

/-- A name of a key, or of a field in its value, that can be looked up in the files of the levels. -/
def Spec.MayBeAsked (E : Env) (sc : Scope) (rs : List Rung) (opts : Entries) (name : Str) : Prop :=
  ∃ root fs st, name = joinDots (root :: fs) ∧ (∀ f ∈ fs, KeyPart f) ∧ AskedIn E sc rs root ∧ StrategySaid (levelsIn E sc rs) root opts st ∧
    saidOf "convert_to".toList root (levelsIn E sc rs) = [] ∧ Mergeable st (valuesOf (levelsIn E sc rs) root) ∧
    (st = "deep".toList → Together (valuesOf (levelsIn E sc rs) root))

theorem rungs_answer {E : Env} (he : StatelessEnv E) {s : St} (hs : Session E s) (hl : s.v.locked = []) {sc : Scope} {rs : List Rung}
    {opts : Entries} {name : Str} (h : MayBeAsked E sc rs opts name) : ∃ v, GivenBy E sc rs opts name v ∧ NameAnswer E sc opts name (.ok v) := by
  obtain ⟨root, fs, st, rfl, hf, ha, hsaid, hc, hm, hd⟩ := h
  obtain ⟨k, v, h1, h2, h3⟩ := C119_textbook he hs hl ha hsaid hc hm hd hf none
  exact ⟨_, .field hsaid h2, .key h1 ((C81_answer _ he hs hl _ none k opts _).1 h3)⟩

/-- C119: what `lookup` prints in such a set-up is the first value that the files give for one of the names, or the values of all. -/
theorem C119_prints (A : Cli) (he : StatelessEnv A.types.env) {s : St} (hs : Session A.types.env s) (o : CommandOptions) {args : List Str}
    (hx : ¬Explains o) {dv : Option Value} {vars : Entries} (hp : Prepared A o none dv vars) {opts : Entries} (ho : MergeAsked o.merge opts)
    {rs : List Rung} (hr : Laddered A.types.env (.nested A.scope (.map vars)) rs)
    (ha : ∀ a ∈ args, MayBeAsked A.types.env (.nested A.scope (.map vars)) rs opts a) (hd : args.Nodup) :
    ∃ vs, List.Forall₂ (GivenBy A.types.env (.nested A.scope (.map vars)) rs opts) args vs ∧ ∀ out,
      (∃ n w, lookupAndRender A (eval A.types.env n) o args s.v = some (out, w)) ↔ Prints A o (.ok (shown o.lookupAll args vs dv)) out := by
  have hc : Readable A.types.env := newCfg_rungs hr
  exact prints_answers A he hc hs o hx hp ho (fun a h => rungs_answer he hs (session_locks he hc hs) (ha a h)) hd

/-- C119 for the server: whatever was requested before, the answer to a request is 200 with what the files give for the key, as JSON, or 404
if that is nothing. -/
theorem C119_served (A : Cli) (he : StatelessEnv A.types.env) (base : CommandOptions) {v : View} (hv : Serving A base v) (hx : ¬Explains base)
    (hla : base.lookupAll = false) {key : Str} (hp : KeptPath ("/lookup/".toList ++ key)) (hk : '\n' ∉ key) (params : List (Str × Str)) (req : List Str)
    {dv : Option Value} {vars : Entries} (hq : Prepared A (restOptions base params req) none dv vars) {opts : Entries}
    (ho : MergeAsked (restOptions base params req).merge opts) {rs : List Rung} (hr : Laddered A.types.env (.nested A.scope (.map vars)) rs)
    (ha : MayBeAsked A.types.env (.nested A.scope (.map vars)) rs opts key) :
    ∃ x, GivenBy A.types.env (.nested A.scope (.map vars)) rs opts key x ∧ ∀ r : Response,
      (∃ n w, serve A (eval A.types.env n) base ("/lookup/".toList ++ key) params req v = some (r, w)) ↔
        match x.or dv with
        | none => r.code = 404 ∧ r.body = []
        | some y => ∃ out, Written A.render (.value y) "json".toList out ∧ match out with
          | .ok t => r.code = 200 ∧ r.body = t
          | .panic _ => r.code = 500 ∧ r.body = [] := by
  have hc : Readable A.types.env := newCfg_rungs hr
  obtain ⟨s, hs, rfl⟩ := hv.session
  exact reply_answer A he hc base hs hx hla hp hk params req hq ho (rungs_answer he hs (session_locks he hc hs) ha)

/-! ### Not vacuous -/

namespace RungsShell119

open Rungs119 (world rungs vars scope stateless laddered asked strategy mergeable levels_eq)

/-- The command line, with variables in the file `vars.yaml`. -/
def shell : Cli where
  types := ⟨world, fun _ _ => true⟩
  cli := { parseValue := fun _ => .panic (.other 1)
           readFile := fun p => if p = "vars.yaml".toList then .value (.map vars) else .err (.other 2)
           stdin := .empty }
  render := ⟨fun | .value (.str t) => .ok ('"' :: t ++ ['"']) | _ => .ok [], fun | .value (.str t) => .ok (t ++ ['\n']) | _ => .ok [], fun _ => .ok [], fun _ => []⟩
  scope := .map []
  members := fun _ => none

def options : CommandOptions := { varPaths := ["vars.yaml".toList] }

theorem askable : MayBeAsked world scope rungs [] "conf.b".toList :=
  ⟨"conf".toList, ["b".toList], "hash".toList, rfl, fun f hf => by
    cases List.mem_singleton.1 hf; exact ⟨by unfold Unquoted; decide, by decide, alpha_not_int (by decide)⟩,
    asked, strategy, by rw [levels_eq]; rfl, mergeable, fun h => absurd h (by decide)⟩

/-- `lookup --vars vars.yaml conf.b`. -/
example : ∃ vs, List.Forall₂ (GivenBy world scope rungs []) ["conf.b".toList] vs ∧ ∀ out,
    (∃ n w, lookupAndRender shell (eval world n) options ["conf.b".toList] (newInvocation shell.scope none).v = some (out, w)) ↔
      Prints shell options (.ok (shown false ["conf.b".toList] vs none)) out :=
  C119_prints shell stateless (.start shell.scope none) options (by unfold Explains; decide) (vars := vars) ⟨rfl, rfl, by decide +kernel⟩ .no laddered
    (fun a ha => by rw [List.mem_singleton.1 ha]; exact askable) (by decide)

/-- What is printed. -/
example : (lookupAndRender shell (eval world 12) options ["conf.b".toList] (newInvocation shell.scope none).v).map (·.1) =
    some (.ok (true, "y\n".toList)) := by decide +kernel

example : ∃ x, GivenBy world scope rungs [] "conf.b".toList x ∧ ∀ r : Response,
    (∃ n w, serve shell (eval world n) options ("/lookup/".toList ++ "conf.b".toList) [] [] (newInvocation shell.scope none).v = some (r, w)) ↔
      match x.or none with
      | none => r.code = 404 ∧ r.body = []
      | some y => ∃ out, Written shell.render (.value y) "json".toList out ∧ match out with
        | .ok t => r.code = 200 ∧ r.body = t
        | .panic _ => r.code = 500 ∧ r.body = [] :=
  C119_served shell stateless options .start (by unfold Explains; decide) rfl ((keptPath_iff _).1 (by decide +kernel)) (by decide) [] []
    (vars := vars) ⟨rfl, rfl, by decide +kernel⟩ .no laddered askable

end RungsShell119

end Hiera
