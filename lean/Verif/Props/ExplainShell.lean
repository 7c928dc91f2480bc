/- C115: what `lookup --explain` prints in an ordinary set-up, from the shell to the files and back. -/
import Verif.Props.ExplainedLines
import Verif.Props.Shell

set_option autoImplicit false

namespace Hiera
open Value Spec World

theorem lookupFor_one (A : Cli) (rec : Rec) {o : CommandOptions} (hla : o.lookupAll = false) (dv : Option Value) {name : Str} {k : Key}
    (hk : newKey name = .ok k) {s t : St} {v : Option Value} (h : rec.lookup k (mergeOptions o.merge) s = some (.ok v, t)) :
    lookupFor A rec o none dv [name] s = some (.ok (v.or dv), t) := by
  unfold lookupFor
  rw [hla, if_neg (by decide)]
  have h1 : lookupNames rec (mergeOptions o.merge) [name] s = some (.ok v, t) := by
    unfold lookupNames lookupName
    rw [hk, M.lift_ok_bind, bind_ok h]
    cases v <;> rfl
  unfold lookup2
  show ((lookupNames rec (mergeOptions o.merge) [name]) >>= _) s = _
  rw [bind_ok h1]
  cases v with
  | some v => rfl
  | none => cases dv <;> rfl

/-- C115, from the shell: `lookup` with a key and with `--explain`, `--explain-options` or both prints an explanation with exactly those
lines, whether the key has a value or not, and succeeds if it has one or if there is a default value. -/
theorem C115_printed (A : Cli) (he : StatelessEnv A.types.env) {s : St} (hs : Session A.types.env s) (htop : A.types.env.top = .mux)
    (o : CommandOptions) {ex : ExplOpts} (hx : ExplainerFor o (some ex)) (hla : o.lookupAll = false) {dv : Option Value}
    {vars : Entries} (hp : Prepared A o none dv vars) {opts : Entries} (ho : MergeAsked o.merge opts) {ls : List Level} {root st : Str}
    (hq : Question A.types.env (.nested A.scope (.map vars)) ls root opts st) (hm : Mergeable st (valuesOf ls root)) {fs : List Str}
    (hf : ∀ f ∈ fs, KeyPart f) :
    ∃ node w lo merged v, node.render = .ok w ∧ Textbook "deep".toList (valuesOf ls "lookup_options".toList) lo ∧ Textbook st (valuesOf ls root) merged ∧ Textbook st (valuesOf ls root) v ∧
      page w = askedLines ex (optionsLines A.types.env (.nested A.scope (.map vars)) ls lo)
        (explanation A.types.env (.nested A.scope (.map vars)) ls st root fs opts merged v) ∧
      ∀ out, (∃ n w, lookupAndRender A (eval A.types.env n) o [joinDots (root :: fs)] s.v = some (out, w)) ↔
        Renders ((v.bind (fieldOf fs)).or dv).isSome (renderTo A.render (renderingOf o "s") (.explanation (.at node []))) out := by
  have hc : Readable A.types.env := ⟨_, newCfg_levels hq.setup⟩
  have hl := session_locks he hc hs
  have hmo := (mergeAsked_iff _ _).1 ho
  subst hmo
  have hx' : explainerOf o = some ex := explainerFor_one (C83_explainer o) hx
  have hex : ex.onlyOptions = true → ex.options = true := by cases hx <;> simp
  obtain ⟨k, lo, merged, v, hk, hb0, hb1, hb2, ⟨n, t, hn⟩, hpage⟩ := C115_explained he hs hl htop hq hm hf ex hex
  obtain ⟨node, w, e1, e2, e3⟩ := hpage hn
  refine ⟨node, w, lo, merged, v, e2, hb0, hb1, hb2, e3, fun out => ?_⟩
  have h1 := lookupFor_one A (eval A.types.env n) hla dv hk hn
  have e : nextInvocation { v := s.v } (invocationScope A.scope (some vars)) (some ex) =
    nextInvocation s (.nested A.scope (.map vars)) (some ex) := rfl
  have run : ∀ m r, lookupFor A (eval A.types.env m) o none dv [joinDots (root :: fs)]
      (nextInvocation s (.nested A.scope (.map vars)) (some ex)) = some r → r = (.ok ((v.bind (fieldOf fs)).or dv), t) := by
    intro m r hr
    have a := lookupFor_le A (Nat.le_max_left m n) hr
    rw [lookupFor_le A (Nat.le_max_right m n) h1] at a
    exact (Option.some.inj a).symm
  have render : ∀ x, renderFor A o x t.tree = (renderTo A.render (renderingOf o "s") (.explanation (.at node []))).bind (fun s => .ok (x.isSome, s)) := by
    intro x
    unfold renderFor
    rw [hx', renderingOf_eq, e1]
    rfl
  unfold lookupAndRender
  rw [hp.type, hp.default, hp.scope]
  simp only [bind, Res.bind, pure]
  rw [hx', e, renders_iff, ← render]
  constructor
  · rintro ⟨m, w, h⟩
    cases hf : lookupFor A (eval A.types.env m) o none dv [joinDots (root :: fs)]
        (nextInvocation s (.nested A.scope (.map vars)) (some ex)) with
    | none => rw [hf] at h; cases h
    | some q =>
      rw [run m q hf] at hf
      rw [hf] at h
      cases h
      rfl
  · rintro rfl
    exact ⟨n, t.v, by rw [h1]⟩

/-! ### Not vacuous -/

namespace ExplainShell115
open Ordinary92

/-- The command line, with variables in the file `vars.yaml`. -/
def shell : Cli where
  types := ⟨world, fun _ _ => true⟩
  cli := { parseValue := fun _ => .panic (.other 1)
           readFile := fun p => if p = "vars.yaml".toList then .value (.map [(s "node", .map [(s "name", s "web")])]) else .err (.other 2)
           stdin := .empty }
  render := ⟨fun _ => .ok [], fun _ => .ok [], fun _ => .ok [],
    fun | .explanation (.at n _) => (match n.render with | .ok w => (page w).flatMap (fun l => pageText l ++ ['\n']) | .panic _ => []) | _ => []⟩
  scope := .map []
  members := fun _ => none

def options : CommandOptions := { varPaths := ["vars.yaml".toList], explainData := true }

theorem nested_scope : scope = .nested shell.scope (.map [(s "node", .map [(s "name", s "web")])]) := by
  refine Scope.ext (funext fun x => ?_)
  show Entries.getS _ x = match Entries.getS _ x with | some v => some v | none => none
  cases Entries.getS [(s "node", .map [(s "name", s "web")])] x <;> rfl

/-- `lookup --vars vars.yaml --explain app::users.eve`. -/
example : ∃ node w lo merged v, node.render = .ok w ∧ Textbook "deep".toList (valuesOf levels "lookup_options".toList) lo ∧
    Textbook "deep".toList (valuesOf levels "app::users".toList) merged ∧
    Textbook "deep".toList (valuesOf levels "app::users".toList) v ∧
    page w = askedLines ⟨false, false⟩ (optionsLines world (.nested (.map []) scope) levels lo)
      (explanation world (.nested (.map []) scope) levels "deep".toList "app::users".toList ["eve".toList] [] merged v) ∧
    ∀ out, (∃ n w, lookupAndRender shell (eval world n) options ["app::users.eve".toList] (newInvocation shell.scope none).v = some (out, w)) ↔
      Renders ((v.bind (fieldOf ["eve".toList])).or none).isSome (renderTo shell.render "s".toList (.explanation (.at node []))) out :=
  C115_printed shell stateless (.start shell.scope none) rfl options (.data rfl rfl) rfl (vars := [(s "node", .map [(s "name", s "web")])])
    ⟨rfl, rfl, by decide +kernel⟩ .no (nested_scope ▸ question) mergeable (fs := ["eve".toList])
    (fun f hf => by cases List.mem_singleton.1 hf; exact ⟨by unfold Unquoted; decide, by decide, alpha_not_int (by decide)⟩)

/-- What is printed, with `*` for a value, and with a motd that has one value only. -/
example : (lookupAndRender shell (eval world 12) options ["motd.x".toList] (newInvocation shell.scope none).v).map (·.1) =
    some (.ok (false, ("Searching for \"motd\"\n" ++
      "  data_hash function 'yaml_data'\n" ++
      "    Path \"/h/data/nodes/web.yaml\"\n" ++
      "      Original path: \"nodes/%{node.name}.yaml\"\n" ++
      "      Found key: \"motd\" value: *\n" ++
      "Sub key: \"x\"\n" ++
      "  No such key: \"x\"\n\n").toList)) := by decide +kernel

end ExplainShell115

end Hiera
