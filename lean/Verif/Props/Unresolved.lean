/- C106: levels whose functions are not there. -/
import Verif.Spec.Unresolved
import Verif.Props.Found
import Verif.Props.ExplainTold

set_option autoImplicit false

namespace Hiera
open Value Spec World

/-- C106: a level whose function is not there counts for nothing: every lookup gives the same without it, whatever its places and whichever
kind of function it is, unless there are no other levels or only one. -/
theorem C106_nothing {E : Env} (he : StatelessEnv E) {sc : Scope} {p : Str} {c c' : Cfg}
    (hc : newCfg E.cfg E.configPath (E.readYaml E.configPath) = .ok c) (hc' : newCfg E.cfg p (E.readYaml p) = .ok c')
    (hd : c'.defaults = c.defaults) (hdh : c'.defaultHierarchy = c.defaultHierarchy) {pre post : List Entry} {a x : Entry}
    (hh : c.hierarchy = pre ++ [a] ++ post) (hh' : c'.hierarchy = pre ++ post) (h2 : 2 ≤ (pre ++ post).length)
    {n : Nat} {b : Entry} (hb : refResolve E (ref E none n) ⟨sc, .call⟩ none c.defaults = some (.ok b))
    (hx : refResolve E (ref E none n) ⟨sc, .call⟩ (some b) a = some (.ok x)) (hn : NoFunction E x)
    {s s' : St} (hs : Session E s) (hs' : Session (withFiles E p E.readYaml E.readJson) s')
    (ex ex' : Option ExplOpts) (k : Key) (o : Entries) (r : Res (Option Value)) :
    Gives (withFiles E p E.readYaml E.readJson) (nextInvocation s' sc ex') k o r ↔ Gives E (nextInvocation s sc ex) k o r := by
  refine C105_levels he hc hc' hd hdh (as' := []) (ds' := []) hh (by simpa using hh') ?_ (.cons ⟨n, b, x, hb, hx, .nobody hn⟩ .nil) .nil (fun q => rfl) hs hs' ex ex' k o r
  rw [hh, hh']
  simp only [List.length_append, List.length_singleton] at h2 ⊢
  omega

theorem notFound_on {k : Str} {s : St} {c : Node} {us : List Node} (ho : s.on.isNone = false) (ht : s.tree = .at c us) :
    reportResult k none s = some (.ok none, { s with tree := .at (c.notFound k) us }) := by
  unfold reportResult
  exact bind_ok (report_on ho ht)

theorem provLookup_unresolved (E : Env) (rec : Rec) {p : Prov} {kind : FnKind} {n : Str} (hf : p.entry.function = some (kind, n)) (hb : ¬AlwaysThere kind n)
    (hl : loadFunction E p.entry n = .ok none) (loc : Option Loc) (k : Key) {s : St} {c : Node} {us : List Node} (ho : s.on.isNone = false)
    (ht : s.tree = .at c us) (hu : Unasked p s) :
    ∃ v nm, provLookup E rec p loc k s = some (.ok none, ⟨v, s.on, .at ((c.appendText (unresolvedText n)).notFound nm) us⟩) := by
  obtain ⟨hi, hh⟩ := hu
  have once : loadOnce E p n s = some (.ok none, ⟨{ s.v with loaded := p.id :: s.v.loaded }, s.on, .at (c.appendText (unresolvedText n)) us⟩) := by
    unfold loadOnce
    rw [hl, bind_ok (show lift (.ok none) s = some (.ok none, s) from rfl), bind_ok (show view s = some (.ok s.v, s) from rfl), if_neg hi,
      bind_ok (show reportUnresolved n none s = _ from report_on ho ht)]
    rfl
  unfold provLookup
  rw [hf]
  cases kind with
  | dataHash =>
    dsimp only
    unfold dataHashLookup
    have hash : ∃ v, dataHash E p n loc s = some (.ok [], ⟨v, s.on, .at (c.appendText (unresolvedText n)) us⟩) := by
      unfold dataHash
      rw [bind_ok (show view s = some (.ok s.v, s) from rfl), hh]
      dsimp only
      unfold callHash
      rw [if_neg (fun h => hb (.inl h)), if_neg (fun h => hb (.inr h)), M.bind_assoc, bind_ok once]
      exact ⟨_, rfl⟩
    obtain ⟨v, hash⟩ := hash
    rw [bind_ok hash]
    exact ⟨v, _, notFound_on (s := ⟨v, s.on, .at (c.appendText (unresolvedText n)) us⟩) ho rfl⟩
  | dataDig =>
    dsimp only
    unfold dataDigLookup
    rw [bind_ok once]
    exact ⟨_, _, notFound_on (s := ⟨_, s.on, .at (c.appendText (unresolvedText n)) us⟩) ho rfl⟩
  | lookupKey =>
    dsimp only
    unfold lookupKeyLookup
    rw [if_neg (fun h => hb (.inl h)), if_neg (fun h => hb (.inr h)), bind_ok once]
    exact ⟨_, _, notFound_on (s := ⟨_, s.on, .at (c.appendText (unresolvedText n)) us⟩) ho rfl⟩

section
variable {E : Env} {n : Nat} {p : Prov} {k : Key} {kind : FnKind} {fn : Str} (hf : p.entry.function = some (kind, fn)) (hb : ¬AlwaysThere kind fn)
  (hl : loadFunction E p.entry fn = .ok none)

include hf hb hl in
theorem location_unresolved (l : Loc) {s : St} {c : Node} {us : List Node} (ho : s.on.isNone = false) (ht : s.tree = .at c us) (hu : Unasked p s) :
    ∃ t b, invokeWithLocation E (eval E n) p k l s = some (.ok none, t) ∧ t.on = s.on ∧ t.tree = .at (c.appendBranch b) us ∧
      (if l.exists_ then Tells (unresolvedText fn) b else Unasked p t) := by
  unfold invokeWithLocation
  rw [withNode_on (by rw [ho]; decide) ht]
  cases he : l.exists_ with
  | true =>
    obtain ⟨v, nm, h⟩ := provLookup_unresolved E (eval E n) hf hb hl (some l) k (s := { s with tree := .at (.new (.location l)) (c :: us) }) ho rfl hu
    rw [if_pos rfl, h]
    exact ⟨_, _, rfl, rfl, rfl, .here (List.mem_singleton.2 rfl)⟩
  | false =>
    rw [if_neg (by simp), bind_ok (report_on (s := { s with tree := .at (.new (.location l)) (c :: us) }) ho rfl)]
    exact ⟨_, _, rfl, rfl, rfl, hu⟩

theorem place_adds (l : Loc) : Adds (fun _ _ => True) (invokeWithLocation E (eval E n) p k l) := by
  intro s c us r t ho ht h
  obtain ⟨h1, b, h2, _⟩ := invokeWithLocation_told E n p k l s c us r t ho ht h
  exact ⟨h1, b, h2, trivial⟩

/-- A loop over the locations tells it, once it gets to one that exists. -/
def LoopTells (p : Prov) (fn : Str) (m : M (Option Value)) : Prop :=
  ∀ (s : St) (c : Node) (us : List Node) (r : Res (Option Value)) (t : St), s.on.isNone = false → s.tree = .at c us → Unasked p s →
    m s = some (r, t) → t.on = s.on ∧ ∃ c', t.tree = .at c' us ∧ ∃ b ∈ c'.branches, Tells (unresolvedText fn) b

include hf hb hl in
theorem step_tells {l : Loc} {g : Option Value → M (Option Value)} (ha : AddsOnly (fun _ _ => True) (g none)) (hg : ¬l.exists_ = true → LoopTells p fn (g none)) :
    LoopTells p fn (invokeWithLocation E (eval E n) p k l >>= g) := by
  intro s c us r t ho ht hu h
  obtain ⟨t', b, h1, h2, h3, h4⟩ := location_unresolved (n := n) (k := k) hf hb hl l ho ht hu
  rw [bind_ok h1] at h
  cases he : l.exists_ with
  | true =>
    rw [he, if_pos rfl] at h4
    obtain ⟨a1, c', bs, a2, _, a3, _⟩ := ha t' _ us r t (by rw [h2, ho]) h3 h
    refine ⟨a1.trans h2, c', a2, b, ?_, h4⟩
    rw [a3]
    exact List.mem_append_left _ (List.mem_append_right _ (List.mem_singleton.2 rfl))
  | false =>
    rw [he, if_neg (by simp)] at h4
    obtain ⟨a1, a2⟩ := hg (by rw [he]; simp) t' _ us r t (by rw [h2, ho]) h3 h4 h
    exact ⟨a1.trans h2, a2⟩

theorem only_true {P : Res (Option Value) → List Node → Prop} {m : M (Option Value)} (h : AddsOnly P m) : AddsOnly (fun _ _ => True) m := by
  intro s c us r t ho ht hm
  obtain ⟨h1, c', bs, h2, h3, h4, _⟩ := h s c us r t ho ht hm
  exact ⟨h1, c', bs, h2, h3, h4, trivial⟩

include hf hb hl in
theorem firstLoop_tells : ∀ (ls : List Loc), (∃ l ∈ ls, l.exists_ = true) → LoopTells p fn (firstLoop (invokeWithLocation E (eval E n) p k) ls)
  | [], h => by obtain ⟨_, h, _⟩ := h; cases h
  | l :: ls, h => by
    unfold firstLoop
    refine step_tells hf hb hl (g := fun | some x => pure (some x) | none => firstLoop (invokeWithLocation E (eval E n) p k) ls)
      (only_true (firstLoop_told (fun l => place_adds l) ls)) (fun he => firstLoop_tells ls ?_)
    obtain ⟨l', h1, h2⟩ := h
    rcases List.mem_cons.1 h1 with rfl | h1
    · exact absurd h2 he
    · exact ⟨l', h1, h2⟩

include hf hb hl in
theorem mergeLoop_tells (st : Strategy) (memo : Option Value) : ∀ (ls : List Loc), (∃ l ∈ ls, l.exists_ = true) →
    LoopTells p fn (mergeLoop st (invokeWithLocation E (eval E n) p k) memo ls)
  | [], h => by obtain ⟨_, h, _⟩ := h; cases h
  | l :: ls, h => by
    unfold mergeLoop
    refine step_tells hf hb hl (g := fun
      | some x => match memo with
        | none => mergeLoop st (invokeWithLocation E (eval E n) p k) (some (st.convertValue x)) ls
        | some a => mergeLoop st (invokeWithLocation E (eval E n) p k) (some (st.merge a x)) ls
      | none => mergeLoop st (invokeWithLocation E (eval E n) p k) memo ls)
      (only_true (mergeLoop_told (fun l => place_adds l) st ls memo)) (fun he => mergeLoop_tells st memo ls ?_)
    obtain ⟨l', h1, h2⟩ := h
    rcases List.mem_cons.1 h1 with rfl | h1
    · exact absurd h2 he
    · exact ⟨l', h1, h2⟩

theorem told_after {m : M (Option Value)} (hm : LoopTells p fn m) : LoopTells p fn (do
    let r ← m
    match r with
    | some v => do report (.result v); pure (some v)
    | none => pure none) := by
  intro s c us r t ho ht hu h
  rw [bind_def] at h
  cases h1 : m s with
  | none => rw [h1] at h; cases h
  | some x =>
    obtain ⟨r1, t1⟩ := x
    rw [h1] at h
    obtain ⟨a1, c', a2, b, a3, a4⟩ := hm s c us r1 t1 ho ht hu h1
    cases r1 with
    | panic e => cases h; exact ⟨a1, c', a2, b, a3, a4⟩
    | ok v =>
      cases v with
      | none => cases h; exact ⟨a1, c', a2, b, a3, a4⟩
      | some v =>
        dsimp only at h
        rw [bind_ok (report_on (by rw [a1, ho]) a2)] at h
        cases h
        exact ⟨a1, _, rfl, b, a3, a4⟩

include hf hb hl in
theorem mergeM_tells (st : Strategy) (ls : List Loc) (h : ∃ l ∈ ls, l.exists_ = true) : LoopTells p fn (mergeM st ls (invokeWithLocation E (eval E n) p k)) := by
  have single : ∀ (l : Loc) (g : Option Value → Option Value), l.exists_ = true → LoopTells p fn (do
      match ← invokeWithLocation E (eval E n) p k l with
      | some x => pure (g (some x))
      | none => pure none) := by
    intro l g he
    refine step_tells hf hb hl (g := fun | some x => pure (g (some x)) | none => pure none) ?_ (fun h => absurd he h)
    intro s c us r t ho ht hm
    cases hm
    exact ⟨rfl, c, [], ht, ⟨⟨rfl, rfl⟩, rfl⟩, (List.append_nil _).symm, trivial⟩
  have merged : LoopTells p fn (withNode (.new (.merge st)) (do
      let r ← mergeLoop st (invokeWithLocation E (eval E n) p k) none ls
      match r with
      | some v => do report (.result v); pure (some v)
      | none => pure none)) := by
    intro s c us r t ho ht hu hm
    rw [withNode_on (by rw [ho]; decide) ht] at hm
    split at hm
    · cases hm
    · rename_i r' t' hm'
      obtain ⟨a1, c', a2, b, a3, a4⟩ := told_after (mergeLoop_tells hf hb hl st none ls h) { s with tree := .at (.new (.merge st)) (c :: us) } _ (c :: us) _ _ ho rfl hu hm'
      cases hm
      refine ⟨a1, c.appendBranch c', by simp only [a2, Tree.pop], c', ?_, .under a3 a4⟩
      exact List.mem_append_right _ (List.mem_singleton.2 rfl)
  unfold mergeM mergeLookup
  split
  · obtain ⟨_, h, _⟩ := h; cases h
  · obtain ⟨l', h1, h2⟩ := h
    have e := List.mem_singleton.1 h1
    subst e
    intro s c us r t ho ht hu hm
    obtain ⟨t', b, b1, b2, b3, b4⟩ := location_unresolved (n := n) (k := k) hf hb hl _ ho ht hu
    rw [b1] at hm
    cases hm
    rw [h2, if_pos rfl] at b4
    exact ⟨b2, _, b3, b, List.mem_append_right _ (List.mem_singleton.2 rfl), b4⟩
  · exact told_after (firstLoop_tells hf hb hl _ h)
  · obtain ⟨l', h1, h2⟩ := h
    have e := List.mem_singleton.1 h1
    subst e
    exact single _ (fun x => x.map st.single) h2
  · exact merged
end

/-- C106: when a level is asked for the first time and it has a place that exists, or needs none, then the explanation says below the node
of the level that there is no such function, with the name of it. -/
theorem C106_told_partial (E : Env) (n : Nat) {p : Prov} {kind : FnKind} {fn : Str} (hf : p.entry.function = some (kind, fn)) (hb : ¬AlwaysThere kind fn)
    (hl : loadFunction E p.entry fn = .ok none) (hp : ∀ ls, p.entry.locations = some ls → ∃ l ∈ ls, l.exists_ = true) (k : Key) (st : Strategy)
    {s t : St} {c : Node} {us : List Node} {r : Res (Option Value)} (ho : s.on.isNone = false) (ht : s.tree = .at c us) (hu : Unasked p s)
    (h : mergeLocations E (eval E n) k st p s = some (r, t)) :
    ∃ b, t.tree = .at (c.appendBranch b) us ∧ b.kind = .dataProvider (providerName p.entry) ∧ Tells (unresolvedText fn) b := by
  obtain ⟨_, b, hb', hk⟩ := mergeLocations_told E n k st p s c us r t ho ht h
  refine ⟨b, hb', hk.1, ?_⟩
  unfold mergeLocations at h
  rw [withNode_on (by rw [ho]; decide) ht] at h
  split at h
  · cases h
  · rename_i r' t' hm'
    cases h
    have : ∃ c', t'.tree = .at c' (c :: us) ∧ Tells (unresolvedText fn) c' := by
      cases hloc : p.entry.locations with
      | none =>
        rw [hloc] at hm'
        obtain ⟨v, nm, h⟩ := provLookup_unresolved E (eval E n) hf hb hl none k (s := { s with tree := .at (.new (.dataProvider p.fullName)) (c :: us) }) ho rfl hu
        cases h.symm.trans hm'
        exact ⟨_, rfl, .here (List.mem_singleton.2 rfl)⟩
      | some ls =>
        have := hp ls hloc
        rw [hloc] at hm'
        have fin : LoopTells p fn (match (some ls : Option (List Loc)) with
            | none => provLookup E (eval E n) p none k
            | some [] => pure none
            | some [l] => invokeWithLocation E (eval E n) p k l
            | some ls => mergeM st ls (invokeWithLocation E (eval E n) p k)) := by
          rcases ls with _ | ⟨l, _ | ⟨l', ls⟩⟩
          · obtain ⟨_, h, _⟩ := this; cases h
          · exact mergeM_tells hf hb hl .first [l] this
          · exact mergeM_tells hf hb hl st _ this
        obtain ⟨_, c', h1, x, h2, h3⟩ := fin { s with tree := .at (.new (.dataProvider p.fullName)) (c :: us) } _ (c :: us) _ _ ho rfl hu hm'
        exact ⟨c', h1, .under h2 h3⟩
    obtain ⟨c', h1, h2⟩ := this
    simp only [h1, Tree.pop, Tree.at.injEq, and_true] at hb'
    have := congrArg Node.branches hb'
    have e : c' = b := by simpa [Node.appendBranch, Node.branches] using this
    exact e ▸ h2

namespace Unresolved106

mutual
/-- All texts in an explanation. -/
def textsIn : Node → List Str
  | .mk _ _ _ _ ts bs => ts ++ textsInAll bs
def textsInAll : List Node → List Str
  | [] => []
  | b :: bs => textsIn b ++ textsInAll bs
end

theorem textsInAll_mem {m : Str} : ∀ {bs : List Node} {b : Node}, b ∈ bs → m ∈ textsIn b → m ∈ textsInAll bs
  | x :: bs, b, hb, hm => by
    rw [textsInAll]
    rcases List.mem_cons.1 hb with rfl | hb
    · exact List.mem_append_left _ hm
    · exact List.mem_append_right _ (textsInAll_mem hb hm)

theorem tells_mem {m : Str} {n : Node} (h : Tells m n) : m ∈ textsIn n := by
  induction h with
  | @here n h => cases n; exact List.mem_append_left _ h
  | @under n b hb _ ih => cases n; exact List.mem_append_right _ (textsInAll_mem hb ih)

/-- The first of three levels has a function that is not there. -/
def world : Env := mk (cfg [.map [(s "name", s "gone"), (s "lookup_key", s "nowhere")], entry "b" "b.yaml", entry "c" "c.yaml"])
  [("/h/without.yaml".toList, cfg [entry "b" "b.yaml", entry "c" "c.yaml"]), ("/h/data/b.yaml".toList, .map [(s "x", .int 1)]), ("/h/data/c.yaml".toList, .map [])]

theorem stateless : StatelessEnv world where
  top := .inl rfl
  mux := fun _ _ h => nomatch h
  fns := fun _ _ h => nomatch h
  plugins := fun _ _ _ h => nomatch h

def key : Key := ⟨"x".toList, [.name "x".toList]⟩

/-- What the explanation of the lookup of `x` says in words, and how many levels it has nodes for. -/
def explained (x : ExplOpts) : Option (List Str) :=
  ((eval world 3).lookup key [] (newInvocation (.map []) (some x))).map (fun r => match r.2.tree with | .at c _ => textsIn c | .off _ => [])

/-- With the options explained, it is told, of a level that was asked for the options. -/
example : explained ⟨true, false⟩ = some [unresolvedText "nowhere".toList] := by decide +kernel

def gone : Entry := { root := "/h".toList, name := "gone".toList, function := some (.lookupKey, "nowhere".toList) }

theorem noFunction {e : Entry} (h : e.function = some (.lookupKey, "nowhere".toList)) : NoFunction world e := by
  refine ⟨_, _, h, ?_, ?_⟩
  · rintro (h | h) <;> revert h <;> decide
  · unfold loadFunction
    show (match pluginOf (pluginNs world.loader (pluginPath world e "nowhere".toList)) with
      | some path => world.pluginFn path "nowhere".toList
      | none => .ok none) = .ok none
    split <;> rfl

example : NoFunction world gone := noFunction rfl

/-- What is the case after the lookup: the levels, the node of the first level, and no words. -/
def wordless : Bool :=
  match (eval world 3).lookup key [] (newInvocation (.map []) (some ⟨false, false⟩)) with
  | some (.ok _, u) => match assoc world.configPath u.v.configs, u.tree with
    | some rc, .at c [] => match rc.providers with
      | p :: _ => decide (p.entry.function = some (.lookupKey, "nowhere".toList)) && decide (p.entry.locations = none) &&
          decide (textsIn c = []) &&
          c.branches.any (fun l => l.branches.any (fun b => match b.kind with | .dataProvider x => decide (x = providerName p.entry) | _ => false))
      | [] => false
    | _, _ => false
  | _ => false

/-- The level is told the first time, whichever the key. -/
example (k : Key) (st : Strategy) {r : Res (Option Value)} {t : St}
    (h : mergeLocations world (eval world 3) k st ⟨0, gone⟩ (newInvocation (.map []) (some ⟨false, false⟩)) = some (r, t)) :
    ∃ b, t.tree = .at ((Node.new .root).appendBranch b) [] ∧ b.kind = .dataProvider "lookup_key function 'nowhere'".toList ∧ Tells (unresolvedText "nowhere".toList) b := by
  obtain ⟨_, _, h1, h2, h3⟩ := noFunction (e := gone) rfl
  cases h1
  exact C106_told_partial world 3 (p := ⟨0, gone⟩) rfl h2 h3 (fun ls h => nomatch h) k st rfl rfl ⟨by simp [newInvocation], fun _ => rfl⟩ h

/-- The first level is resolved, and has the function that is not there. -/
def goneIn (c : Cfg) : List Entry → List Entry → Bool
  | [a, b, x], [b', x'] => decide (b' = b) && decide (x' = x) &&
      match refResolve world (ref world none 1) ⟨.map [], .call⟩ none c.defaults with
      | some (.ok d) => match refResolve world (ref world none 1) ⟨.map [], .call⟩ (some d) a with
        | some (.ok y) => decide (y.function = some (.lookupKey, "nowhere".toList))
        | _ => false
      | _ => false
  | _, _ => false

example (k : Key) (o : Entries) (r : Res (Option Value)) :
    Gives (withFiles world "/h/without.yaml".toList world.readYaml world.readJson) (newInvocation (.map []) none) k o r ↔
      Gives world (newInvocation (.map []) none) k o r := by
  have h : Found105.compare world "/h/without.yaml".toList goneIn = true := by decide +kernel
  obtain ⟨c, c', hc, hc', h1, h2, h3⟩ := Found105.compare_spec h
  unfold goneIn at h3
  split at h3
  · rename_i a b x b' x' e1 e2
    simp only [Bool.and_eq_true, decide_eq_true_eq] at h3
    obtain ⟨⟨rfl, rfl⟩, h4⟩ := h3
    split at h4
    · rename_i d hd
      split at h4
      · rename_i y hy
        exact C106_nothing stateless hc hc' h1 h2 (pre := []) (post := [b', x']) e1 e2 (by simp) hd hy (noFunction (of_decide_eq_true h4))
          (.start (.map []) none) (.start (.map []) none) none none k o r
      · cases h4
    · cases h4
  · cases h3

end Unresolved106

/-- C106: but if the explanation is of data only, as it is by default, then it is not told: the level was asked for lookup options before
that, and it is not told again. -/
theorem C106_false : ∃ (E : Env) (n : Nat) (k : Key) (sc : Scope) (s : St) (v : Option Value) (p : Prov) (rc : RCfg) (c : Node),
    (eval E n).lookup k [] (newInvocation sc (some ⟨false, false⟩)) = some (.ok v, s) ∧ assoc E.configPath s.v.configs = some rc ∧
    p ∈ rc.providers ∧ NoFunction E p.entry ∧ p.entry.locations = none ∧ s.tree = .at c [] ∧
    (∃ l ∈ c.branches, ∃ b ∈ l.branches, b.kind = .dataProvider (providerName p.entry)) ∧ ∀ m, ¬Tells m c := by
  have h : Unresolved106.wordless = true := by decide +kernel
  unfold Unresolved106.wordless at h
  split at h
  · rename_i v u hu
    split at h
    · rename_i rc c hrc ht
      split at h
      · rename_i p ps hp
        simp only [Bool.and_eq_true, decide_eq_true_eq, List.any_eq_true] at h
        obtain ⟨⟨⟨h1, h2⟩, h4⟩, l, hl, b, hb, h5⟩ := h
        refine ⟨_, _, _, _, u, v, p, rc, c, hu, hrc, hp ▸ List.mem_cons_self .., Unresolved106.noFunction h1, h2, ht, ⟨l, hl, b, hb, ?_⟩, fun m hm => ?_⟩
        · split at h5
          · rename_i x hx
            rw [hx, of_decide_eq_true h5]
          · cases h5
        · have := Unresolved106.tells_mem hm
          rw [h4] at this
          cases this
      · cases h
    · cases h
  · cases h

end Hiera
