/- C94: sessions without a configuration, where the top provider is the file, the variables, the environment, a function of the
program, or several of these. -/
import Verif.Lemmas.TopProvider
import Verif.Props.Reference
import Verif.Props.Interp

set_option autoImplicit false

namespace Hiera
open Value Spec World

/-! ### The answers -/

theorem follows_fst {I : Ctx → St → Prop} {C : Ctx} {α : Type} {o : Option (Res α × St)} {x : Ans α} (h : FollowsG I C Eq o x) :
    o.map Prod.fst = x := by
  match x, h with
  | none, h => rw [h]; rfl
  | some (.ok b), ⟨a, t, h, q, _⟩ => rw [h, q]; rfl
  | some (.panic e), ⟨t, h⟩ => rw [h]; rfl

theorem gives_top {E : Env} (he : PlainTop E) {file : Res Entries} {scope : Scope} {s : St} (hs : InvTop E file ⟨scope, .call⟩ s) (k : Key)
    (o : Entries) (r : Res (Option Value)) : Gives E s k o r ↔ TopAnswer E file scope k o r := by
  have h : ∀ n, ((eval E n).lookup k o s).map Prod.fst = (topRef E file n).lookup ⟨scope, .call⟩ k o := fun n =>
    follows_fst ((RecSimTop.eval he file n).lookup ⟨scope, .call⟩ k o trivial s hs)
  rw [gives_iff]
  simp only [h]
  rfl

theorem Spec.Used.inv {E : Env} (he : PlainTop E) {scope : Scope} {s : St} (h : Used E scope s) : InvTop E (theFile E) ⟨scope, .call⟩ s := by
  induction h with
  | new scope => exact ⟨rfl, rfl, .inr ⟨rfl, rfl⟩⟩
  | next scope _ ih => exact ⟨rfl, rfl, ih.file⟩
  | lookup n k o _ hl ih =>
    have hk := (KeepsTop.eval he n).lookup k o _ _ _ ih.on hl
    refine ⟨hk.on, hk.scope.trans ih.scope, ?_⟩
    rcases hk.file with h1 | ⟨h1, es, h2, h3⟩
    · unfold FileIs
      rw [h1]
      exact ih.file
    · exact .inl ⟨es, h3, h2⟩

/-- C94: whatever a session without a configuration has been used for, in this invocation and in earlier ones and with whatever
results, what a lookup gives is the answer of the reference: the same value, nothing, the same error, or no end. -/
theorem C94_answer (E : Env) (he : PlainTop E) {scope : Scope} {s : St} (h : Used E scope s) (k : Key) (o : Entries)
    (r : Res (Option Value)) : Gives E s k o r ↔ TopAnswer E (theFile E) scope k o r :=
  gives_top he (h.inv he) k o r

/-- C94 for the first lookup of an invocation that has an explainer. -/
theorem C94_explained (E : Env) (he : PlainTop E) {scope' : Scope} {s : St} (h : Used E scope' s) (scope : Scope) (x : ExplOpts) (k : Key)
    (o : Entries) (r : Res (Option Value)) : Gives E (nextInvocation s scope (some x)) k o r ↔ TopAnswer E (theFile E) scope k o r := by
  rw [← C94_answer E he (.next scope h), gives_iff, gives_iff]
  have : ∀ n, ((eval E n).lookup k o (nextInvocation s scope (some x))).map Prod.fst = ((eval E n).lookup k o (nextInvocation s scope none)).map Prod.fst :=
    fun n => (C27_explain E n k o (nextInvocation s scope none).v x).1
  simp only [this]

/-! ### The file, while files change -/

/-- What lookups find in the file: what is known of it, else what it has now. -/
def Spec.inFile (E : Env) (known : Option Entries) : Res Entries :=
  match known with
  | some es => .ok es
  | none => theFile E

theorem Spec.UsedChanging.inv {E : Env} (ht : E.top = .yaml) {scope : Scope} {known : Option Entries} {s : St}
    (h : UsedChanging E scope known s) : s.on = none ∧ s.v.ic.scope = scope ∧ assoc "yaml::data".toList s.v.cache = known.map .map := by
  induction h with
  | new scope => exact ⟨rfl, rfl, rfl⟩
  | next scope _ ih => exact ⟨rfl, rfl, ih.2.2⟩
  | @lookup scope known s t r f n k o _ hl ih =>
    obtain ⟨h1, h2, h3⟩ := ih
    have he : PlainTop (readingFiles E f) := .inl (by show Unconfigured E.top; rw [ht]; trivial)
    have hk := (KeepsTop.eval he n).lookup k o _ _ _ h1 hl
    refine ⟨hk.on, hk.scope.trans h2, ?_⟩
    unfold learns
    cases n with
    | zero => cases hl
    | succ n =>
    by_cases hr : k.root = "lookup_options".toList
    · rw [lookup_hidden _ hr o h1] at hl
      cases hl
      rw [if_pos hr]
      exact h3
    · rw [if_neg hr]
      cases known with
      | some es =>
        rcases hk.file with h4 | ⟨h4, _⟩
        · rw [h4, h3]
        · rw [h3] at h4; cases h4
      | none =>
        cases hf : theFile (readingFiles E f) with
        | panic e =>
          rcases hk.file with h4 | ⟨_, es, h4, _⟩
          · rw [h4, h3]
          · rw [hf] at h4; cases h4
        | ok es =>
          have hl' : Hiera.lookup (readingFiles E f) (eval (readingFiles E f) n) k o s = some (r, t) := hl
          unfold Hiera.lookup at hl'
          rw [if_neg hr, show (readingFiles E f).top = .yaml from ht] at hl'
          have hy : callLk (readingFiles E f) (eval (readingFiles E f) n) .yaml o k.root s =
              some (.ok (Entries.getS es k.root), { s with v := { s.v with cache := ("yaml::data".toList, .map es) :: s.v.cache } }) := by
            show yamlLookup _ _ s = _
            unfold yamlLookup
            rw [bind_ok (show view s = some (.ok s.v, s) from rfl), show assoc "yaml::data".toList s.v.cache = none from h3]
            dsimp only
            rw [fileData_theFile, hf]
            rfl
          rw [bind_ok hy] at hl'
          cases hg : Entries.getS es k.root with
          | none =>
            rw [hg] at hl'
            cases hl'
            simp [assoc]
          | some v =>
            rw [hg] at hl'
            have c := KeepsTop.core (readingFiles E f)
            have rest := KeepsTop.forData (c.bind (c.toCore.interpolate (KeepsTop.eval he n).interp (fun _ => (KeepsTop.eval he n).lookup)
              (readingFiles E f) v) (fun a => c.toCore.dig k a)) { s with v := { s.v with cache := ("yaml::data".toList, .map es) :: s.v.cache } } r t h1 hl'
            rcases rest.file with h4 | ⟨h4, _⟩
            · rw [h4]; simp [assoc]
            · simp [assoc] at h4

/-- C94: if the top provider is the file of the session option `path`, then lookups find what the file had when a lookup of the
session read it first, in whichever invocation, and whatever happens to the file afterwards. While the file cannot be read there
are errors, and each lookup tries again. -/
theorem C94_changing (E : Env) (ht : E.top = .yaml) {scope : Scope} {known : Option Entries} {s : St} (h : UsedChanging E scope known s)
    (f : Files) (k : Key) (o : Entries) (r : Res (Option Value)) :
    Gives (readingFiles E f) s k o r ↔ TopAnswer E (inFile (readingFiles E f) known) scope k o r := by
  obtain ⟨h1, h2, h3⟩ := h.inv ht
  have he : PlainTop (readingFiles E f) := .inl (by show Unconfigured E.top; rw [ht]; trivial)
  have hi : InvTop (readingFiles E f) (inFile (readingFiles E f) known) ⟨scope, .call⟩ s := by
    refine ⟨h1, h2, ?_⟩
    cases known with
    | some es => exact .inl ⟨es, h3, rfl⟩
    | none => exact .inr ⟨h3, rfl⟩
  rw [gives_top he hi]
  unfold TopAnswer
  simp only [topRef_files ht f]

/-! ### What the answers are -/

theorem topAnswer_of {E : Env} {file : Res Entries} {scope : Scope} {k : Key} {o : Entries} {r : Res (Option Value)} (n : Nat)
    (h : (topRef E file n).lookup ⟨scope, .call⟩ k o = some r) : TopAnswer E file scope k o r := ⟨n, h⟩

/-- What the functions have that are not the program's own. -/
inductive Spec.ReadyMade (E : Env) (file : Res Entries) (scope : Scope) (key : Str) : LkFn → Res (Option Value) → Prop
  | env : ReadyMade E file scope key .env (.ok (envLookup E key))
  | scope : ReadyMade E file scope key .scope (.ok (scope.get key))
  | yaml (es : Entries) : file = .ok es → ReadyMade E file scope key .yaml (.ok (Entries.getS es key))
  | unread (e : Err) : file = .panic e → ReadyMade E file scope key .yaml (.panic e)
  | notFunction : ReadyMade E file scope key .notFunction (.ok none)

theorem Spec.ReadyMade.unconfigured {E : Env} {file : Res Entries} {scope : Scope} {key : Str} {f : LkFn} {r : Res (Option Value)}
    (h : ReadyMade E file scope key f r) : Unconfigured f := by
  cases h <;> trivial

theorem topCall_has {E : Env} {file : Res Entries} {scope : Scope} {key : Str} {f : LkFn} {r : Res (Option Value)} (h : ReadyMade E file scope key f r)
    (rec : Ref) (w : Within) (o : Entries) : topCall E file rec ⟨scope, w⟩ f o key = some r := by
  cases h with
  | env => rfl
  | scope => rfl
  | yaml es h => rw [h]; rfl
  | unread e h => rw [h]; rfl
  | notFunction => rfl

/-- C94: one of the ready-made functions as the top provider. If it has nothing for the first segment of the key, then there is
nothing; an error is an error; and a value without `%{` is what the other segments lead to in it. The options of the lookup do not
matter. -/
theorem C94_value (E : Env) {scope : Scope} {s : St} (h : Used E scope s) (k : Key)
    (hk : k.root ≠ "lookup_options".toList) (o : Entries) {r : Res (Option Value)} (hr : ReadyMade E (theFile E) scope k.root E.top r)
    (hm : ∀ v, r = .ok (some v) → marked v = false) :
    Gives E s k o (match r with
      | .ok (some v) => .ok (k.digPure v)
      | r => r) := by
  have he : PlainTop E := .inl hr.unconfigured
  rw [C94_answer E he h]
  refine topAnswer_of 1 ?_
  show topLookup E (theFile E) (topRef E (theFile E) 0) ⟨scope, .call⟩ k o = _
  unfold topLookup
  rw [if_neg hk, topCall_has hr]
  match r, hm with
  | .panic e, _ => rfl
  | .ok none, _ => rfl
  | .ok (some v), hm =>
    show (do
      let r ← refInterp E (topRef E (theFile E) 0) ⟨scope, .call⟩ true v
      pure (r.bind k.digPure)) = _
    rw [refInterp_unmarked true (hm v rfl)]
    rfl

/-- C94: the options of a lookup matter only for the program's own functions. -/
theorem C94_options (E : Env) {scope : Scope} {s : St} (h : Used E scope s) (k : Key) (o o' : Entries)
    (hf : ∃ r, ReadyMade E (theFile E) scope k.root E.top r) (r : Res (Option Value)) : Gives E s k o r ↔ Gives E s k o' r := by
  obtain ⟨x, hx⟩ := hf
  have he : PlainTop E := .inl hx.unconfigured
  rw [C94_answer E he h, C94_answer E he h]
  have key : ∀ n, (topRef E (theFile E) n).lookup ⟨scope, .call⟩ k o = (topRef E (theFile E) n).lookup ⟨scope, .call⟩ k o' := by
    intro n
    cases n with
    | zero => rfl
    | succ n =>
      show topLookup _ _ _ _ _ _ = topLookup _ _ _ _ _ _
      unfold topLookup
      rw [topCall_has hx, topCall_has hx]
  unfold TopAnswer
  simp only [key]

/-- C94: the key `lookup_options` has nothing, even if the top provider has it. -/
theorem C94_hidden (E : Env) (he : PlainTop E) {scope : Scope} {s : St} (h : Used E scope s) (k : Key)
    (hk : k.root = "lookup_options".toList) (o : Entries) : Gives E s k o (.ok none) := by
  rw [C94_answer E he h]
  exact topAnswer_of 1 (show topLookup _ _ _ _ _ _ = _ by unfold topLookup; rw [if_pos hk]; rfl)

/-- C94 and C18: without a configuration values are interpolated once. The text that `literal` gives is the answer; it is not
interpolated. -/
theorem C94_literal (E : Env) {scope : Scope} {s : St} (h : Used E scope s) (k : Key) (hk : k.root ≠ "lookup_options".toList) (o : Entries)
    {e x arg : Str} (hr : ReadyMade E (theFile E) scope k.root E.top (.ok (some (.str ("%{".toList ++ e ++ "}".toList))))) (hc : '}' ∉ e) (hx : Trimmed e x)
    (hcall : Call x "literal".toList arg) : Gives E s k o (.ok (k.digPure (.str arg))) := by
  have he : PlainTop E := .inl hr.unconfigured
  rw [C94_answer E he h]
  refine topAnswer_of 1 ?_
  show topLookup E (theFile E) (topRef E (theFile E) 0) ⟨scope, .call⟩ k o = _
  unfold topLookup
  rw [if_neg hk, topCall_has hr]
  have hi := h.inv he
  have h1 := interpolate_sim (E := E) (RecSimTop.eval he (theFile E) 0).toRecSimG (C := ⟨scope, .call⟩) true (fun _ => trivial)
    (.str ("%{".toList ++ e ++ "}".toList)) s hi
  rw [C18_literal_partial E 0 e x arg hc hx hcall s hi.on] at h1
  have h2 := follows_fst h1
  show (do
    let r ← refInterp E (topRef E (theFile E) 0) ⟨scope, .call⟩ true (.str ("%{".toList ++ e ++ "}".toList))
    pure (r.bind k.digPure)) = _
  rw [← h2]
  rfl

/-! ### Concrete cases -/

/-- A session with the file as its top provider. -/
def fileWorld (es : Entries) : Env :=
  { top := .yaml, yamlPath := some (s "/data.yaml"),
    readYaml := fun p => if p = "/data.yaml".toList then .value (.map es) else .missing }

/-- The file, and then the variables. -/
def filesWorld (es : Entries) : Env := { fileWorld es with top := .mux, muxFns := some [.yaml, .scope] }

example : PlainTop (fileWorld []) := .inl trivial
example : PlainTop (filesWorld []) := .inr ⟨rfl, fun fs h f hf => by cases h; simp at hf; rcases hf with rfl | rfl <;> trivial⟩

def literalFile : Entries := [(s "x", s "%{literal('%')}{y}"), (s "a", .map [(s "b", .arr [.int 1, .int 2])]), (s "l", s "<%{lookup('x')}>")]

/-- The text that `literal` gives is text, unlike in a session with a configuration (`C18_false`). That is so
where the value is looked up for the sake of another, too. -/
theorem C94_once : ask (fileWorld literalFile) 10 "x" [(s "y", s "oops")] = some (.ok (some (s "%{y}"))) ∧
    ask (fileWorld literalFile) 10 "a" [] = some (.ok (some (.map [(s "b", .arr [.int 1, .int 2])]))) ∧
    ask (fileWorld literalFile) 10 "l" [(s "y", s "oops")] = some (.ok (some (s "<%{y}>"))) := by decide +kernel

/-- With several functions, what they have for a key is taken for its options as well: a hash with `merge` in it says how hashes
are merged, and is an error if there is no such merge. -/
theorem C94_taken_for_options : ask (filesWorld [(s "k", .map [(s "merge", s "hash"), (s "a", .int 1)])]) 10 "k" [(s "k", .map [(s "b", .int 2)])] =
      some (.ok (some (.map [(s "b", .int 2), (s "merge", s "hash"), (s "a", .int 1)]))) ∧
    ask (filesWorld [(s "k", .map [(s "a", .int 1)])]) 10 "k" [(s "k", .map [(s "b", .int 2)])] = some (.ok (some (.map [(s "a", .int 1)]))) ∧
    ask (filesWorld [(s "k", .map [(s "merge", s "no")])]) 10 "k" [] = some (.panic (.unknownStrategy "no".toList)) := by decide +kernel

/-- A use of a session in which the file is read, and then is replaced by a file that cannot be read. -/
example : ∃ t, UsedChanging (fileWorld []) (.map []) (some literalFile) t ∧
    ∀ e, Gives (readingFiles (fileWorld []) ⟨fun _ => false, fun _ => [], fun _ => .err e, fun _ => .missing⟩) t ⟨"a".toList, [.name "a".toList]⟩ []
      (.ok (some (.map [(s "b", .arr [.int 1, .int 2])]))) := by
  have h0 := UsedChanging.new (E := fileWorld []) (.map [])
  let f : Files := ⟨fun _ => false, fun _ => [], (fileWorld literalFile).readYaml, fun _ => .missing⟩
  have h : ∃ r t, (eval (readingFiles (fileWorld []) f) 1).lookup ⟨"z".toList, [.name "z".toList]⟩ [] (newInvocation (.map []) none) = some (r, t) :=
    ⟨_, _, rfl⟩
  obtain ⟨r, t, h⟩ := h
  have h1 := UsedChanging.lookup f 1 _ _ h0 h
  refine ⟨t, h1, fun e => (C94_changing (fileWorld []) rfl h1 _ _ _ _).2 ?_⟩
  exact topAnswer_of 1 rfl

end Hiera
