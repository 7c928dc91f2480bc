/-
  Properties C27, C28: explaining (`session/invocation.go` With*, Report*, For*; `explain/explainer.go`).
-/
import Verif.Lemmas.NonInterf
import Verif.Lemmas.World

set_option autoImplicit false

namespace Hiera
open World

/-- C27: whatever the explain flags, a lookup has the same outcome with an explainer as without: it does not terminate in
both cases, or it fails with the same error in both, or it returns the same value in both; and if it returns then
everything but the explanation is in the same state afterwards, so that the same holds for the next lookup. -/
theorem C27_explain (E : Env) (n : Nat) (k : Key) (o : Entries) (v : View) (x : ExplOpts) :
    (((eval E n).lookup k o ⟨v, some x, .new⟩).map Prod.fst = ((eval E n).lookup k o ⟨v, none, .new⟩).map Prod.fst) ∧
    ∀ a s s', (eval E n).lookup k o ⟨v, some x, .new⟩ = some (.ok a, s) →
      (eval E n).lookup k o ⟨v, none, .new⟩ = some (.ok a, s') → s.v = s'.v := by
  have h := (NI.eval E n).lookup k o ⟨v, some x, .new⟩ ⟨v, none, .new⟩ rfl (isAt_at _ _) (isAt_at _ _)
  rcases h.elim with ⟨h1, h2⟩ | ⟨a, t, t', h1, h2, h3, h4, h5⟩ | ⟨e, t, t', h1, h2, h4, h5⟩
  · rw [h1, h2]; exact ⟨rfl, fun _ _ _ h => nomatch h⟩
  · rw [h1, h2]
    refine ⟨rfl, ?_⟩
    intro b s s' g g'
    cases g; cases g'; exact h3
  · rw [h1, h2]; exact ⟨rfl, fun _ _ _ h => nomatch h⟩

/-- C27 for a sequence of lookups in one invocation. -/
def Spec.lookups (E : Env) (n : Nat) : List (Key × Entries) → St → Option (List (Option Value))
  | [], _ => some []
  | (k, o) :: ks, s => match (eval E n).lookup k o s with
    | some (.ok v, s') => (lookups E n ks s').map (v :: ·)
    | _ => none

/-- C27: the answers to a sequence of lookups, none of which fails, are the same with and without an explainer. -/
theorem C27_explain_seq (E : Env) (n : Nat) (ks : List (Key × Entries)) (v : View) (x : ExplOpts) :
    Spec.lookups E n ks ⟨v, some x, .new⟩ = Spec.lookups E n ks ⟨v, none, .new⟩ := by
  suffices ∀ s s' : St, s.v = s'.v → IsAt s.tree → IsAt s'.tree → Spec.lookups E n ks s = Spec.lookups E n ks s' from
    this _ _ rfl (isAt_at _ _) (isAt_at _ _)
  induction ks with
  | nil => intro s s' _ _ _; rfl
  | cons ko ks ih =>
    intro s s' hv ht ht'
    obtain ⟨k, o⟩ := ko
    simp only [Spec.lookups]
    rcases ((NI.eval E n).lookup k o s s' hv ht ht').elim with
      ⟨h1, h2⟩ | ⟨a, t, t', h1, h2, h3, h4, h5⟩ | ⟨e, t, t', h1, h2, h4, h5⟩
    · rw [h1, h2]
    · simp only [h1, h2]
      rw [ih t t' h3 h4.2.right h5.2.right]
    · rw [h1, h2]

/-- C28: after a lookup, also after one that failed, the explainer's current node is the one it was before: its ancestors
are the same ones, and it was only added to. -/
theorem C28_balanced (E : Env) (n : Nat) (k : Key) (o : Entries) (v : View) (x : Option ExplOpts) (cur : Node)
    (ups : List Node) (r : Res (Option Value)) (s : St) (h : (eval E n).lookup k o ⟨v, x, .at cur ups⟩ = some (r, s)) :
    s.on = x ∧ ∃ cur', s.tree = .at cur' ups ∧ cur'.kind = cur.kind ∧ cur.branches <+: cur'.branches ∧
      cur.texts <+: cur'.texts := by
  have hk := (NI.eval E n).lookup k o ⟨v, x, .at cur ups⟩ ⟨v, x, .at cur ups⟩ rfl (isAt_at _ _) (isAt_at _ _)
  rw [h] at hk
  have key : Kept ⟨v, x, .at cur ups⟩ s := by
    rcases hk.elim with ⟨h1, h2⟩ | ⟨a, t, t', h1, h2, h3, h4, h5⟩ | ⟨e, t, t', h1, h2, h4, h5⟩
    · cases h1
    · cases h1; exact h4
    · cases h1; exact h4
  refine ⟨key.1, ?_⟩
  obtain ⟨c, us, hc⟩ := tree_cases key.2.right
  have := key.2
  rw [hc] at this
  exact ⟨c, by rw [hc, this.1], this.2⟩

/-- The same for a panic-free explainer: with a current node, no lookup fails because of the explainer. -/
theorem C28_no_failure (E : Env) (n : Nat) (k : Key) (o : Entries) (v : View) (x : ExplOpts) (cur : Node)
    (ups : List Node) (e : Err) (s : St) (h : (eval E n).lookup k o ⟨v, some x, .at cur ups⟩ = some (.panic e, s)) :
    ∃ s', (eval E n).lookup k o ⟨v, none, .new⟩ = some (.panic e, s') := by
  have hk := (NI.eval E n).lookup k o ⟨v, some x, .at cur ups⟩ ⟨v, none, .new⟩ rfl (isAt_at _ _) (isAt_at _ _)
  rcases hk.elim with ⟨h1, h2⟩ | ⟨a, t, t', h1, h2, h3, h4, h5⟩ | ⟨e', t, t', h1, h2, h4, h5⟩
  · rw [h1] at h; cases h
  · rw [h1] at h; cases h
  · rw [h1] at h; cases h; exact ⟨_, h2⟩

/-! ### After a failure

`ForConfig` makes a copy of the invocation only when there is an explainer. When resolving a configuration fails while a
mapped variable is in scope, that variable therefore stays in scope of the invocation if there is no explainer, and does
not if there is one: in an invocation that goes on after a failure, explaining does change answers. -/

/-- Modules `a`, whose configuration cannot be resolved, and `b`, whose data file depends on the variable `z`. -/
def leakWorld : Env where
  top := .module
  modulePath := some ["/m".toList]
  readDir := fun p => if p = "/m".toList then .entries [("a".toList, true), ("b".toList, true)] else .missing
  lstat := fun p => if p = "/m/a/hiera.yaml".toList ∨ p = "/m/b/hiera.yaml".toList then .file else .missing
  stat := fun p => p = "/m/b/data/leak.yaml".toList
  readYaml := fun p =>
    if p = "/m/a/hiera.yaml".toList then
      .value (cfg [.map [(s "name", s "e"), (s "mapped_paths", .arr [s "w", s "z", s "%{a..b}"])]])
    else if p = "/m/b/hiera.yaml".toList then .value (cfg [entry "e" "%{z}.yaml"])
    else if p = "/m/b/data/leak.yaml".toList then .value (.map [(s "b::k", .int 1)])
    else .missing

/-- The answer to a lookup after a lookup that failed. -/
def Spec.afterFailure (E : Env) (n : Nat) (k k' : Key) (s : St) : Option (Res (Option Value)) :=
  match (eval E n).lookup k [] s with
  | some (.panic _, s') => ((eval E n).lookup k' [] s').map Prod.fst
  | _ => none

/-- C27 does not extend to invocations that go on after a failure. -/
theorem C27_false_after_failure : ∃ (E : Env) (n : Nat) (k k' : Key) (v : View) (x : ExplOpts),
    Spec.afterFailure E n k k' ⟨v, some x, .new⟩ ≠ none ∧ Spec.afterFailure E n k k' ⟨v, none, .new⟩ ≠ none ∧
    Spec.afterFailure E n k k' ⟨v, some x, .new⟩ ≠ Spec.afterFailure E n k k' ⟨v, none, .new⟩ := by
  refine ⟨leakWorld, 5, ⟨"a::x".toList, [.name "a::x".toList]⟩, ⟨"b::k".toList, [.name "b::k".toList]⟩,
    { ic := { scope := .map [(s "w", .arr [s "leak"])] } }, ⟨false, false⟩, ?_⟩
  decide +kernel

/-! Concrete cases: a successful lookup with an explanation, and one that fails half-way. -/

/-- A two-level hierarchy with a nested lookup and a reference that cannot be parsed. -/
def exWorld : Env := two [(s "x", s "hello %{lookup('z')}"), (s "bad", s "%{alias('z')} more")] [(s "z", s "foo")]

example : ask exWorld 10 "x" = some (.ok (some (s "hello foo"))) := by decide +kernel
example : ((eval exWorld 10).lookup ⟨"x".toList, [.name "x".toList]⟩ [] (st [] (some ⟨true, false⟩))).map
    (fun r => (r.1, match r.2.tree with | .at c us => (c.branches.length, us.length) | .off _ => (99, 99))) =
    some (.ok (some (s "hello foo")), (2, 0)) := by decide +kernel
example : ((eval exWorld 10).lookup ⟨"bad".toList, [.name "bad".toList]⟩ [] (st [] (some ⟨true, false⟩))).map
    (fun r => (r.1, match r.2.tree with | .at c us => (c.branches.length, us.length) | .off _ => (99, 99))) =
    some (.panic .aliasNotAlone, (2, 0)) := by decide +kernel
example : Spec.lookups exWorld 10 [(⟨"x".toList, [.name "x".toList]⟩, []), (⟨"z".toList, [.name "z".toList]⟩, [])]
    (st [] (some ⟨true, false⟩)) = some [some (s "hello foo"), some (s "foo")] := by decide +kernel

end Hiera
