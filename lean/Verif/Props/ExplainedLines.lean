/- C115: what `--explain` prints in an ordinary set-up. -/
import Verif.Spec.ExplainedLines
import Verif.Props.Telling
import Verif.Props.TrueTold
import Verif.Props.Ordinary

set_option autoImplicit false

namespace Hiera
open Value Spec World

/-- A computation has an outcome, and tells this. -/
def Recounts (J : View → Prop) {α : Type} (m : M α) (o : α) (ts : List Telling) : Prop :=
  ∀ (s : St) (c : Node) (us : List Node), s.on.isNone = false → s.tree = .at c us → J s.v →
    ∃ w, J w ∧ m s = some (.ok o, ⟨w, s.on, .at (nodeAfterAll ts c) us⟩)

theorem nodeAfterAll_two (ts : List Telling) : ∀ (us : List Telling) (n : Node), nodeAfterAll (ts ++ us) n = nodeAfterAll us (nodeAfterAll ts n) := by
  induction ts with
  | nil => intro us n; simp only [List.nil_append, nodeAfterAll]
  | cons t ts ih => intro us n; simp only [List.cons_append, nodeAfterAll, ih]

section
variable {J : View → Prop} {α β : Type}

theorem Recounts.pure (a : α) : Recounts J (Pure.pure a) a [] := by
  intro s c us _ ht hj
  refine ⟨s.v, hj, ?_⟩
  rw [nodeAfterAll, ← ht]
  rfl

theorem Recounts.bind {m : M α} {f : α → M β} {a : α} {b : β} {ts us : List Telling} (hm : Recounts J m a ts) (hf : Recounts J (f a) b us) :
    Recounts J (m >>= f) b (ts ++ us) := by
  intro s c ups ho ht hj
  obtain ⟨w, hw, h1⟩ := hm s c ups ho ht hj
  obtain ⟨w', hw', h2⟩ := hf ⟨w, s.on, .at (nodeAfterAll ts c) ups⟩ _ ups ho rfl hw
  exact ⟨w', hw', by rw [bind_ok h1, h2, nodeAfterAll_two]⟩

theorem Recounts.withNode {m : M α} {a : α} {kind : NodeKind} {key : Str} {ts : List Telling} (hm : Recounts J m a ts) :
    Recounts J (withNode (.new kind key) m) a [.within kind key ts] := by
  intro s c us ho ht hj
  obtain ⟨w, hw, h1⟩ := hm { s with tree := .at (.new kind key) (c :: us) } (.new kind key) (c :: us) ho rfl hj
  refine ⟨w, hw, ?_⟩
  rw [withNode_on (by rw [ho]; decide) ht, h1]
  simp only [Tree.pop, nodeAfterAll, nodeAfter]

theorem Recounts.report {f : Node → Node} {t : Telling} (h : ∀ n, nodeAfter t n = f n) : Recounts J (report f) () [t] := by
  intro s c us ho ht hj
  refine ⟨s.v, hj, ?_⟩
  rw [report_on ho ht]
  simp only [nodeAfterAll, h]

end

/-- A telling about a value that was found, or not. -/
def foundTold (key : Str) : Option Value → Telling
  | some v => .found key v
  | none => .notFound key

theorem Recounts.reportResult {J : View → Prop} (key : Str) (v : Option Value) : Recounts J (reportResult key v) v [foundTold key v] := by
  cases v with
  | none => exact .bind (ts := [foundTold key none]) (us := []) (.report (fun n => by simp only [foundTold, nodeAfter])) (.pure none)
  | some x => exact .bind (ts := [foundTold key (some x)]) (us := []) (.report (fun n => by simp only [foundTold, nodeAfter])) (.pure (some x))

/-! ### A level -/

/-- The states in which the levels are asked: what is remembered is right, and nothing else changes. -/
def Steady (E : Env) (ic : Ic) (cs : List (Str × RCfg)) (v : View) : Prop := v.ic = ic ∧ v.configs = cs ∧ Coh E v.hashes

/-- What is told about a level. -/
def levelTold (E : Env) (sc : Scope) (key : Str) (l : Level) : Telling :=
  .within (.dataProvider "data_hash function 'yaml_data'".toList) [] [
    .within (.location (.path l.written (l.file E sc) (E.stat (l.file E sc)))) [] [
      match l.data with
      | none => .locationNotFound
      | some es => foundTold key (Entries.getS es key)]]

section
variable {E : Env} {sc : Scope} {ls : List Level} {ic : Ic} {cs : List (Str × RCfg)}

theorem dataHash_recounts {p : Prov} {l : Level} (hp : p.entry = resolvedOf E sc l) {es : Entries}
    (hr : E.readYaml (l.file E sc) = .value (.map es)) :
    Recounts (Steady E ic cs) (dataHash E p "yaml_data".toList (some (.path l.written (l.file E sc) true))) es [] := by
  intro s c us ho ht ⟨h1, h2, h3⟩
  have hfit : Fits p "yaml_data".toList (some (.path l.written (l.file E sc) true)) := ⟨by rw [hp]; rfl, by rw [hp]; rfl⟩
  have hof : optionsFor p (some (.path l.written (l.file E sc) true)) = [(.str "path".toList, .str (l.file E sc))] := by
    unfold optionsFor
    rw [hp]
    rfl
  have hfd : fileData E E.readYaml [(.str "path".toList, .str (l.file E sc))] = .ok es := by
    have : fileData E E.readYaml [(.str "path".toList, .str (l.file E sc))] =
      match E.readYaml (l.file E sc) with
      | .missing => .ok []
      | .err e => .panic e
      | .value (.map es) => .ok es
      | .value _ => .panic (.notHash (l.file E sc)) := rfl
    rw [this, hr]
  have hh : hashOf E p "yaml_data".toList (optionsFor p (some (.path l.written (l.file E sc) true))) = .ok es := by
    unfold hashOf
    rw [if_pos rfl, hof, hfd]
  unfold dataHash
  dsimp only
  rw [bind_ok (show view s = some (.ok s.v, s) from rfl)]
  cases hc : assoc (p, Loc.resolved (.path l.written (l.file E sc) true)) s.v.hashes with
  | some h =>
    have := h3 p _ (some (.path l.written (l.file E sc) true)) h hfit hc
    rw [hh] at this
    cases this
    refine ⟨s.v, ⟨h1, h2, h3⟩, ?_⟩
    rw [nodeAfterAll, ← ht]
    rfl
  | none =>
    dsimp only
    unfold callHash
    rw [if_pos rfl, hof, hfd, nodeAfterAll, ← ht]
    exact ⟨{ s.v with trace := s.v.trace ++ [.hash "yaml_data".toList [(.str "path".toList, .str (l.file E sc))]],
                      hashes := ((p, hashKey (some (.path l.written (l.file E sc) true))), es) :: s.v.hashes }, ⟨h1, h2, h3.cons hfit hh⟩, rfl⟩

theorem level_recounts (ho : Ordinary E sc ls) {l : Level} (hl : l ∈ ls) (rec : Rec) (k : Key) (st : Strategy)
    (hu : ∀ v, l.has k.root = some v → Unmarked v) {p : Prov} (hp : p.entry = resolvedOf E sc l) :
    Recounts (Steady E ic cs) (mergeLocations E rec k st p) (l.has k.root) [levelTold E sc k.root l] := by
  unfold mergeLocations
  have hname : p.fullName = "data_hash function 'yaml_data'".toList := by
    unfold Prov.fullName
    rw [hp]
    rfl
  rw [hname, hp]
  refine .withNode ?_
  show Recounts _ (invokeWithLocation E rec p k (.path l.written (l.file E sc) (E.stat (l.file E sc)))) _ _
  unfold invokeWithLocation
  refine .withNode ?_
  cases hd : l.data with
  | none =>
    rw [ho.absent l hl hd]
    have : l.has k.root = none := by rw [Level.has, hd]; rfl
    rw [this]
    exact .bind (ts := [.locationNotFound]) (us := []) (.report (fun n => by simp only [nodeAfter])) (.pure none)
  | some es =>
    obtain ⟨h1, h2, _⟩ := ho.there l hl es hd
    have hh : l.has k.root = Entries.getS es k.root := by rw [Level.has, hd]; rfl
    rw [h1]
    show Recounts _ (provLookup E rec p (some (.path l.written (l.file E sc) true)) k) _ _
    unfold provLookup
    rw [hp]
    show Recounts _ (dataHashLookup E rec p "yaml_data".toList (some (.path l.written (l.file E sc) true)) k) _ _
    unfold dataHashLookup
    refine .bind (ts := []) (dataHash_recounts hp h2) ?_
    rw [hh] at hu
    rw [hh]
    show Recounts _ _ _ [foundTold k.root (Entries.getS es k.root)]
    cases hv : Entries.getS es k.root with
    | none => exact .reportResult k.root none
    | some x =>
      dsimp only
      rw [interpolate_plain E rec true (plain_of_unmarked (unmarked_iff (hu x hv))), M.pure_bind]
      exact .reportResult k.root (some x)

/-! ### The hierarchy -/

/-- Told of a result, if there is one. -/
def mergedTold (v : Option Value) : List Telling := v.toList.map .merged

theorem Recounts.result {J : View → Prop} (v : Option Value) : Recounts J (match v with
    | some v => do Hiera.report (Node.result v); Pure.pure (some v)
    | none => Pure.pure none : M (Option Value)) v (mergedTold v) := by
  cases v with
  | none => exact .pure none
  | some x => exact .bind (ts := [.merged x]) (us := []) (.report (fun n => by simp only [nodeAfter])) (.pure (some x))

theorem firstLoop_recounts {J : View → Prop} {α : Type} {f : α → M (Option Value)} {told : Level → Telling} {key : Str} :
    ∀ {ps : List α} {ls : List Level}, List.Forall₂ (fun p l => Recounts J (f p) (l.has key) [told l]) ps ls →
      Recounts J (firstLoop f ps) (valuesOf ls key).head? ((untilFound key ls).map told)
  | [], [], _ => .pure none
  | p :: ps, l :: ls, .cons h hs => by
    unfold firstLoop
    have ih := firstLoop_recounts hs
    have := valuesOf_cons l ls key
    rw [this]
    unfold untilFound
    show Recounts J _ _ ([told l] ++ List.map told (match l.has key with | some _ => [] | none => untilFound key ls))
    refine .bind h ?_
    cases l.has key with
    | none => exact ih
    | some v => exact .pure (some v)

theorem mergeLoop_recounts {J : View → Prop} {α : Type} (st : Strategy) {f : α → M (Option Value)} {told : Level → Telling} {key : Str} :
    ∀ {ps : List α} {ls : List Level} (memo : Option Value), List.Forall₂ (fun p l => Recounts J (f p) (l.has key) [told l]) ps ls →
      Recounts J (mergeLoop st f memo ps) (match memo with
        | some a => some ((valuesOf ls key).foldl st.merge a)
        | none => refCombine st (valuesOf ls key)) (ls.map told)
  | [], [], none, _ => .pure _
  | [], [], some _, _ => .pure _
  | p :: ps, l :: ls, memo, .cons h hs => by
    unfold mergeLoop
    rw [valuesOf_cons]
    show Recounts J _ _ ([told l] ++ ls.map told)
    refine .bind h ?_
    cases l.has key with
    | none => exact mergeLoop_recounts st memo hs
    | some v =>
      cases memo with
      | none => exact mergeLoop_recounts st (some (st.convertValue v)) hs
      | some a => exact mergeLoop_recounts st (some (st.merge a v)) hs

/-- What is told about a merge. -/
def searchTold (told : Level → Telling) (key : Str) (st : Strategy) (ls : List Level) : List Telling :=
  match st, ls with
  | _, [] => []
  | _, [l] => [told l]
  | .first, ls => (untilFound key ls).map told ++ mergedTold (outcome .first ls key)
  | st, ls => [.within (.merge st) [] (ls.map told ++ mergedTold (outcome st ls key))]

theorem mergeM_recounts {J : View → Prop} {α : Type} (st : Strategy) {f : α → M (Option Value)} {told : Level → Telling} {key : Str}
    {ps : List α} {ls : List Level} (h : List.Forall₂ (fun p l => Recounts J (f p) (l.has key) [told l]) ps ls) :
    Recounts J (mergeM st ps f) (outcome st ls key) (searchTold told key st ls) := by
  have one : ∀ {st : Strategy} {p : α} {l : Level}, st ≠ .first → Recounts J (f p) (l.has key) [told l] → Recounts J (do
      match ← f p with
      | some x => pure (some (st.single x))
      | none => pure none) ((l.has key).map st.single) [told l] := by
    intro st p l _ h
    refine .bind (us := []) h ?_
    cases l.has key <;> exact .pure _
  have many : ∀ (st : Strategy) {ps : List α} {ls : List Level}, List.Forall₂ (fun p l => Recounts J (f p) (l.has key) [told l]) ps ls →
      Recounts J (withNode (.new (.merge st)) (mergeLoop st f none ps >>= fun r => match r with
        | some v => do report (.result v); pure (some v)
        | none => pure none)) (refCombine st (valuesOf ls key)) [.within (.merge st) [] (ls.map told ++ mergedTold (refCombine st (valuesOf ls key)))] := by
    intro st ps ls h
    exact .withNode (.bind (mergeLoop_recounts st none h) (.result _))
  match st, ps, ls, h with
  | .first, [], [], _ => exact .pure none
  | .unique, [], [], _ => exact .pure none
  | .hash, [], [], _ => exact .pure none
  | .deep _, [], [], _ => exact .pure none
  | .first, [p], [l], .cons h .nil =>
    show Recounts J (f p) (valuesOf [l] key).head? [told l]
    rw [valuesOf_cons, show valuesOf [] key = [] from rfl, List.append_nil]
    cases hh : l.has key <;> rw [hh] at h <;> exact h
  | .unique, [p], [l], .cons h .nil => exact one (by simp) h
  | .hash, [p], [l], .cons h .nil => exact one (by simp) h
  | .deep _, [p], [l], .cons h .nil => exact one (by simp) h
  | .first, _ :: _ :: _, l :: l' :: ls, h => exact .bind (firstLoop_recounts h) (.result _)
  | .unique, _ :: _ :: _, l :: l' :: ls, h => exact many .unique h
  | .hash, _ :: _ :: _, l :: l' :: ls, h => exact many .hash h
  | .deep o, _ :: _ :: _, l :: l' :: ls, h => exact many (.deep o) h

/-- What is told where the environment is asked after the configuration. -/
def bothTold (told : Level → Telling) (key : Str) (st : Strategy) (ls : List Level) : List Telling :=
  match st with
  | .first => searchTold told key .first ls ++ mergedTold (outcome .first ls key)
  | st => [.within (.merge st) [] (searchTold told key st ls ++ mergedTold ((outcome st ls key).map st.convertValue))]

theorem hierarchy_recounts (ho : Ordinary E sc ls) (rec : Rec) (k : Key) (st : Strategy) (hu : ∀ v ∈ valuesOf ls k.root, Unmarked v)
    {ps : List Prov} (hp : ps.map Prov.entry = ls.map (resolvedOf E sc)) :
    Recounts (Steady E ic cs) (mergeHierarchy E rec k ps st) (outcome st ls k.root) (searchTold (levelTold E sc k.root) k.root st ls) := by
  refine mergeM_recounts st ?_
  have : ∀ (ls' : List Level) (ps : List Prov), (∀ l ∈ ls', l ∈ ls) → ps.map Prov.entry = ls'.map (resolvedOf E sc) →
      List.Forall₂ (fun p l => Recounts (Steady E ic cs) (mergeLocations E rec k st p) (l.has k.root) [levelTold E sc k.root l]) ps ls' := by
    intro ls'
    induction ls' with
    | nil =>
      intro ps _ h
      rw [List.map_nil, List.map_eq_nil_iff] at h
      subst h
      exact .nil
    | cons l ls' ih =>
      intro ps hl h
      cases ps with
      | nil => cases h
      | cons p ps =>
        simp only [List.map_cons, List.cons.injEq] at h
        exact .cons (level_recounts ho (hl l (by simp)) rec k st (fun v hv => hu v (List.mem_filterMap.2 ⟨l, hl l (by simp), hv⟩)) h.1)
          (ih ps (fun l' h' => hl l' (by simp [h'])) h.2)
  exact this ls ps (fun _ h => h) hp

theorem fns_recount (ho : Ordinary E sc ls) (n : Nat) {k : Key} {key : Str} (hk : newKey key = .ok k) (hkr : k.root = key) (opts : Entries) {st : Strategy}
    (hu : ∀ v ∈ valuesOf ls key, Unmarked v) (hn : envLookup E key = none) (hm : ic.mode = .data) (hst : ic.strategy = some st)
    {rc : RCfg} (hrc : assoc E.configPath cs = some rc) (hp : rc.providers.map Prov.entry = ls.map (resolvedOf E sc)) :
    Recounts (Steady E ic cs) (mergeM st [.config, .env] (fun f => (eval E (n + 1)).lk f opts key))
      ((outcome st ls key).map st.convertValue) (bothTold (levelTold E sc key) key st ls) := by
  subst hkr
  have hc : Recounts (Steady E ic cs) ((eval E (n + 1)).lk .config opts k.root) (outcome st ls k.root) (searchTold (levelTold E sc k.root) k.root st ls) := by
    intro s c us h1 h2 h3
    rw [lkConfig_run n hk (by rw [h3.1]; exact hm) (by rw [h3.1]; exact hst) (by rw [h3.2.1]; exact hrc)]
    exact hierarchy_recounts ho (eval E n) k st hu hp s c us h1 h2 h3
  have he : Recounts (Steady E ic cs) ((eval E (n + 1)).lk .env opts k.root) none [] := by
    show Recounts _ (pure (envLookup E k.root)) _ _
    rw [hn]
    exact .pure none
  have many : ∀ {st : Strategy}, Recounts (Steady E ic cs) ((eval E (n + 1)).lk .config opts k.root) (outcome st ls k.root)
      (searchTold (levelTold E sc k.root) k.root st ls) → Recounts (Steady E ic cs) (withNode (.new (.merge st))
        (mergeLoop st (fun f => (eval E (n + 1)).lk f opts k.root) none [.config, .env] >>= fun r => match r with
        | some v => do report (.result v); pure (some v)
        | none => pure none)) ((outcome st ls k.root).map st.convertValue)
      [.within (.merge st) [] (searchTold (levelTold E sc k.root) k.root st ls ++ mergedTold ((outcome st ls k.root).map st.convertValue))] := by
    intro st hc
    refine .withNode (.bind ?_ (.result _))
    unfold mergeLoop
    rw [← List.append_nil (searchTold _ _ _ _)]
    refine .bind hc ?_
    cases outcome st ls k.root with
    | none =>
      unfold mergeLoop
      exact .bind (us := []) he (.pure none)
    | some v =>
      dsimp only
      unfold mergeLoop
      exact .bind (us := []) he (.pure (some (st.convertValue v)))
  cases st with
  | first =>
    rw [show (outcome .first ls k.root).map Strategy.first.convertValue = outcome .first ls k.root by cases outcome .first ls k.root <;> rfl]
    refine .bind ?_ (.result _)
    unfold firstLoop
    rw [← List.append_nil (searchTold _ _ _ _)]
    refine .bind hc ?_
    cases outcome .first ls k.root with
    | some v => exact .pure (some v)
    | none =>
      unfold firstLoop
      exact .bind (us := []) he (.pure none)
  | unique => exact many hc
  | hash => exact many hc
  | deep o => exact many hc

end

/-! ### Dotted keys -/

/-- What is told about the fields of a value. -/
def fieldsTold : List Str → Value → List Telling
  | [], _ => []
  | f :: fs, v => .within (.segment (.name f)) [] [foundTold f (fieldOf [f] v)] :: match fieldOf [f] v with
    | some w => fieldsTold fs w
    | none => []

theorem fieldOf_more (f : Str) (fs : List Str) (v : Value) : fieldOf (f :: fs) v = (fieldOf [f] v).bind (fieldOf fs) := by
  cases v <;> try rfl
  rename_i es
  simp only [fieldOf]
  cases Entries.getS es f <;> rfl

theorem digSegment_field (f : Str) (v : Value) : digSegment (.name f) v = fieldOf [f] v := by
  cases v <;> try rfl
  rename_i es
  simp only [fieldOf]
  show Entries.get es (.str f) = (Entries.getS es f).bind _
  unfold Entries.getS
  cases Entries.get es (.str f) <;> rfl

theorem digLoop_recounts {J : View → Prop} : ∀ (fs : List Str) (v : Value), Recounts J (digLoop (fs.map .name) (some v)) (fieldOf fs v) (fieldsTold fs v)
  | [], v => .pure (some v)
  | f :: fs, v => by
    rw [List.map_cons, digLoop, fieldsTold, fieldOf_more]
    have seg : Recounts J (digSeg (.name f) (some v)) (fieldOf [f] v) [foundTold f (fieldOf [f] v)] := by
      unfold digSeg
      rw [Option.bind_some, digSegment_field]
      exact .reportResult f (fieldOf [f] v)
    refine .bind (ts := [_]) (.withNode seg) ?_
    cases fieldOf [f] v with
    | none => exact .pure none
    | some w => exact digLoop_recounts fs w

/-- What is told about a dotted key. -/
def subKeyTold (k : Key) (fs : List Str) : Option Value → List Telling
  | none => []
  | some v => match fs with
    | [] => []
    | fs => [.within (.subLookup k) [] (fieldsTold fs v)]

theorem dig_recounts {J : View → Prop} (src root : Str) (fs : List Str) (v : Value) :
    Recounts J (dig ⟨src, .name root :: fs.map .name⟩ (some v)) (fieldOf fs v) (subKeyTold ⟨src, .name root :: fs.map .name⟩ fs (some v)) := by
  cases fs with
  | nil => exact .pure (some v)
  | cons f fs =>
    unfold dig
    rw [if_neg (by simp)]
    exact .withNode (digLoop_recounts (f :: fs) v)

/-! ### The lookup -/

/-- What is told about where the strategy is from. -/
def sourceTold (opts : Entries) (lo : Option Entries) : List Telling :=
  match Entries.getS opts "merge".toList, lo.bind (fun m => Entries.getS m "merge".toList) with
  | some _, _ => [.source "CLI option".toList]
  | none, some _ => [.source "\"lookup_options\" hash".toList]
  | none, none => []

theorem mergeOption_recounts {J : View → Prop} (opts : Entries) (lo : Option Entries) :
    Recounts J (mergeOption (Entries.getS opts "merge".toList) lo) (refMergeOption opts lo) (sourceTold opts lo) := by
  have src : ∀ (x : Str) (o : Value), Recounts J (report (.mergeSource x) >>= fun _ => pure (some o)) (some o) [.source x] := fun x o =>
    .bind (ts := [.source x]) (us := []) (.report (fun n => by simp only [nodeAfter])) (.pure _)
  unfold mergeOption sourceTold refMergeOption
  cases Entries.getS opts "merge".toList with
  | some o => exact src _ o
  | none =>
    cases lo with
    | none => exact .pure none
    | some m =>
      dsimp only [Option.bind_some]
      cases Entries.getS m "merge".toList with
      | none => exact .pure none
      | some o => exact src _ o

section
variable {E : Env} {sc : Scope} {ls : List Level} {root st : Str} {opts : Entries}

/-- All that is told. -/
def lookupTold (E : Env) (sc : Scope) (ls : List Level) (root : Str) (opts : Entries) (lo : Option Entries) (st : Strategy) : Telling :=
  .within .lookup root (sourceTold opts lo ++ bothTold (levelTold E sc root) root st ls)

theorem lookup_recounts (ho : Ordinary E sc ls) (n : Nat) (hk : newKey root = .ok ⟨root, [.name root]⟩) (opts : Entries) {lo : Option Entries}
    {st : Strategy} (hst : getStrategy (strategyNamed (refMergeOption opts lo)).1 (strategyNamed (refMergeOption opts lo)).2 = .ok st)
    (hcv : extractConversion E lo = .ok none) (hu : ∀ v ∈ valuesOf ls root, Unmarked v) (hn : envLookup E root = none)
    {s : St} {c : Node} {us : List Node} {ex : ExplOpts} (hx : ex.onlyOptions = false) (hon : s.on = some ex) (ht : s.tree = .at c us)
    (hm : s.v.ic.mode = .top) (hc : Coh E s.v.hashes)
    {rc : RCfg} (hrc : assoc E.configPath s.v.configs = some rc) (hp : rc.providers.map Prov.entry = ls.map (resolvedOf E sc)) :
    ∃ w, Steady E s.v.ic s.v.configs w ∧ forData (do
      let k ← lift (newKey root)
      withNode (.new .lookup k.source) (do
        setMergeStrategy (Entries.getS opts "merge".toList) lo
        lookupAndConvert E (do
          let st ← currentStrategy
          mergeM st [.config, .env] (fun f => (eval E (n + 1)).lk f opts root)))) s =
      some (.ok ((outcome st ls root).map st.convertValue), ⟨w, s.on, .at (nodeAfterAll [lookupTold E sc ls root opts lo st] c) us⟩) := by
  have ex' : explForData (some ex) = some ex := by simp only [explForData, hx, Bool.false_eq_true, if_false]
  unfold forData
  rw [bind_ok (show view s = some (.ok s.v, s) from rfl), if_neg (by rw [hm]; simp)]
  unfold withCopy
  rw [hon, ex', hk, M.lift_ok_bind]
  have main : Recounts (fun v => v.ic.mode = .data ∧ v.configs = s.v.configs ∧ Coh E v.hashes) (withNode (.new .lookup root) (do
        setMergeStrategy (Entries.getS opts "merge".toList) lo
        lookupAndConvert E (do
          let st ← currentStrategy
          mergeM st [.config, .env] (fun f => (eval E (n + 1)).lk f opts root)))) ((outcome st ls root).map st.convertValue) [lookupTold E sc ls root opts lo st] := by
    refine .withNode ?_
    intro s1 c1 us1 ho1 ht1 hj1
    obtain ⟨w, ⟨j1, j2, j3⟩, h1⟩ := mergeOption_recounts (J := fun v => v.ic.mode = .data ∧ v.configs = s.v.configs ∧ Coh E v.hashes) opts lo s1 c1 us1 ho1 ht1 hj1
    have hset : setMergeStrategy (Entries.getS opts "merge".toList) lo s1 =
        some (.ok (), ⟨{ w with ic := { w.ic with luOpts := lo, strategy := some st } }, s1.on, .at (nodeAfterAll (sourceTold opts lo) c1) us1⟩) := by
      unfold setMergeStrategy
      rw [bind_ok h1, bind_ok (show setLuOpts lo _ = some (.ok (), _) from rfl), hst, M.lift_ok_bind]
      rfl
    rw [bind_ok hset]
    have inner := fns_recount (ic := { w.ic with luOpts := lo, strategy := some st }) (cs := s.v.configs) ho n hk rfl opts (st := st) hu hn j1 rfl hrc hp
    obtain ⟨w', ⟨i1, i2, i3⟩, h2⟩ := inner ⟨{ w with ic := { w.ic with luOpts := lo, strategy := some st } }, s1.on, .at (nodeAfterAll (sourceTold opts lo) c1) us1⟩
      _ us1 ho1 rfl ⟨rfl, j2, j3⟩
    refine ⟨w', ⟨by rw [i1]; exact j1, i2, i3⟩, ?_⟩
    rw [nodeAfterAll_two]
    unfold lookupAndConvert
    rw [bind_ok (show view _ = some (.ok _, _) from rfl)]
    dsimp only
    rw [hcv, M.lift_ok_bind]
    show ((currentStrategy >>= fun st => mergeM st [.config, .env] (fun f => (eval E (n + 1)).lk f opts root)) >>= fun r => lift (convert E r none)) _ = _
    rw [M.bind_assoc, bind_ok (show currentStrategy _ = some (.ok st, _) from rfl), bind_ok h2]
    cases (outcome st ls root).map st.convertValue <;> rfl
  obtain ⟨w, ⟨_, j2, j3⟩, h⟩ := main ⟨{ s.v with ic := { s.v.ic with mode := .data } }, some ex, s.tree⟩ c us rfl ht ⟨rfl, rfl, hc⟩
  rw [h]
  exact ⟨{ w with ic := s.v.ic }, ⟨rfl, j2, j3⟩, rfl⟩

/-- What is told where the options of all keys are read. -/
def levelOptionsTold (E : Env) (sc : Scope) (ls : List Level) : Telling :=
  .within .lookup "lookup_options".toList (searchTold (levelTold E sc "lookup_options".toList) "lookup_options".toList (.deep []) ls)

/-- What is told where the options of a key are asked for. -/
def optionsTold (E : Env) (sc : Scope) (ls : List Level) (lo : Option Value) : Telling :=
  .within (.merge (.deep [])) [] ([levelOptionsTold E sc ls] ++ mergedTold lo)

/-- Resolving the configuration tells about the options of all keys. -/
theorem config_recounts (he : StatelessEnv E) (ho : Ordinary E sc ls) (hu : ∀ v ∈ valuesOf ls "lookup_options".toList, Unmarked v) {C : Ctx} (n : Nat)
    {ex : ExplOpts} {s t : St} {c : Node} {us : List Node} {rc : RCfg} (hon : s.on = some ex) (ht : s.tree = .at c us) (hv : Stands E none C s.v)
    (hm : s.v.ic.mode = .lookupOptions) {cfg : Cfg} (hcfg : newCfg E.cfg E.configPath (E.readYaml E.configPath) = .ok cfg) {d : Nat} {x : Site}
    (hsite : refSite E (ref E none d) C cfg = some (.ok x)) (hx : x.entries = ls.map (resolvedOf E sc))
    (h : config E (eval E n) E.configPath [] s = some (.ok rc, t)) :
    t.on = s.on ∧ t.v.ic = s.v.ic ∧ t.tree = .at (nodeAfterAll [levelOptionsTold E sc ls] c) us := by
  obtain ⟨m, ps, lo, lo', s4, s2, _, _, _, ho4, ht4, hic, hp4, hv4, h5, to5, tt5, ti5⟩ := config_parts he n hon ht hv hcfg hsite h
  unfold forLookupOptions at h5
  rw [bind_ok (show view s4 = some (.ok s4.v, s4) from rfl), if_pos (by rw [hic, hm])] at h5
  have main : Recounts (Steady E s4.v.ic s4.v.configs) (withNode (.new .lookup lookupOptionsKey.source)
      (mergeM (.deep []) ps (mergeLocations E (eval E m) lookupOptionsKey (.deep [])))) (outcome (.deep []) ls "lookup_options".toList)
      [levelOptionsTold E sc ls] :=
    .withNode (hierarchy_recounts (ic := s4.v.ic) (cs := s4.v.configs) ho (eval E m) lookupOptionsKey (.deep []) hu (by rw [hp4, hx]))
  obtain ⟨w, ⟨w1, _⟩, hw⟩ := main s4 c us (by rw [ho4]; rfl) (ht4.trans ht) ⟨rfl, rfl, hv4.coh⟩
  rw [hw] at h5
  cases h5
  exact ⟨(to5.trans ho4).trans hon.symm, (ti5.trans w1).trans hic, tt5⟩

/-- What is told where the options of a key are asked for. -/
theorem options_recount (he : StatelessEnv E) (ho : Ordinary E sc ls) (hu : ∀ v ∈ valuesOf ls "lookup_options".toList, Unmarked v) {C : Ctx} (n : Nat)
    {ex : ExplOpts} (hop : ex.options = true) (opts : Entries) {key : Str} (hn : envLookup E key = none) {s t : St} {c : Node} {us : List Node}
    {lo : Option Value} (hon : s.on = some ex) (ht : s.tree = .at c us) (hv : Stands E none C s.v) (hm : s.v.ic.mode = .top)
    {cfg : Cfg} (hcfg : newCfg E.cfg E.configPath (E.readYaml E.configPath) = .ok cfg) {d : Nat} {x : Site}
    (hsite : refSite E (ref E none d) C cfg = some (.ok x)) (hx : x.entries = ls.map (resolvedOf E sc))
    (h : forLookupOptions (mergeM (.deep []) [.config, .env] (fun f => (eval E (n + 1)).lk f opts key)) s = some (.ok lo, t)) :
    t.tree = .at (nodeAfterAll [optionsTold E sc ls lo] c) us := by
  unfold forLookupOptions at h
  rw [bind_ok (show view s = some (.ok s.v, s) from rfl), if_neg (by rw [hm]; simp)] at h
  unfold withCopy at h
  rw [hon, show explForOptions (some ex) = some ex by simp only [explForOptions, hop, Bool.true_or, if_true]] at h
  generalize hs1 : ({ s with v := { s.v with ic := { s.v.ic with mode := .lookupOptions } }, on := some ex } : St) = s1 at h
  have ho1 : s1.on = some ex := by rw [← hs1]
  have ht1 : s1.tree = .at c us := by rw [← hs1]; exact ht
  have e : mergeM (.deep []) [.config, .env] (fun f => (eval E (n + 1)).lk f opts key) s1 =
    withNode (.new (.merge (.deep []))) (mergeLoop (.deep []) (fun f => (eval E (n + 1)).lk f opts key) none [.config, .env] >>= fun r => match r with
      | some v => do report (.result v); pure (some v)
      | none => pure none : M (Option Value)) s1 := rfl
  rw [e, withNode_on (by rw [ho1]; intro h; cases h) ht1] at h
  generalize hs2 : ({ s1 with tree := .at (.new (.merge (.deep []))) (c :: us) } : St) = s2 at h
  have ho2 : s2.on = some ex := by rw [← hs2]; exact ho1
  have ht2 : s2.tree = .at (.new (.merge (.deep []))) (c :: us) := by rw [← hs2]
  have hm2 : s2.v.ic.mode = .lookupOptions := by rw [← hs2, ← hs1]
  have hv2 : Stands E none C s2.v := by
    rw [← hs2, ← hs1]
    exact ⟨rfl, hv.scope, hv.coh, (fun _ h => nomatch h), (fun h => nomatch h), fun h => ⟨(hv.un h).1, (hv.un h).2, (hv.un h).3⟩⟩
  have run : ∀ u, (mergeLoop (.deep []) (fun f => (eval E (n + 1)).lk f opts key) none [.config, .env] >>= fun r => match r with
      | some v => do report (.result v); pure (some v)
      | none => pure none : M (Option Value)) s2 = some (.ok lo, u) →
      u.tree = .at (nodeAfterAll ([levelOptionsTold E sc ls] ++ mergedTold lo) (.new (.merge (.deep [])))) (c :: us) := by
    intro u hu0
    unfold mergeLoop at hu0
    rw [M.bind_assoc] at hu0
    obtain ⟨v1, u1, hu1, hu0⟩ := ok_of_bind hu0
    have hu1' : configAt E (eval E n) E.configPath opts key [] s2 = some (.ok v1, u1) := hu1
    unfold configAt at hu1'
    obtain ⟨rc, u2, hc, hu2⟩ := ok_of_bind hu1'
    obtain ⟨g1, hic, g2⟩ := config_recounts he ho hu n ho2 ht2 hv2 hm2 hcfg hsite hx hc
    obtain ⟨kk, u3, hk3, hu3⟩ := ok_of_bind hu2
    have : u3 = u2 := by
      cases hq : newKey key with
      | ok y => rw [hq] at hk3; cases hk3; rfl
      | panic e => rw [hq] at hk3; cases hk3
    subst this
    rw [bind_ok (show view u3 = some (.ok u3.v, u3) from rfl), hic, hm2] at hu3
    dsimp only at hu3
    cases hu3
    have env : ∀ u, (eval E (n + 1)).lk .env opts key u = some (.ok none, u) := fun _ => by
      show some (Res.ok (envLookup E key), _) = _
      rw [hn]
    have fin : ∀ v, (match v with
      | some v => do report (.result v); pure (some v)
      | none => pure none : M (Option Value)) u1 = some (.ok lo, u) →
        u.tree = .at (nodeAfterAll ([levelOptionsTold E sc ls] ++ mergedTold lo) (.new (.merge (.deep [])))) (c :: us) := by
      intro v hv
      obtain ⟨w, _, hw⟩ := Recounts.result (J := fun _ => True) v u1 _ _ (by rw [g1, ho2]; rfl) g2 trivial
      have e4 := hv.symm.trans hw
      cases e4
      rw [nodeAfterAll_two]
    cases hco : (rc.optionsOf kk).map Value.map with
    | none =>
      rw [hco] at hu0
      dsimp only at hu0
      unfold mergeLoop at hu0
      rw [M.bind_assoc, bind_ok (env u1)] at hu0
      exact fin none hu0
    | some w =>
      rw [hco] at hu0
      dsimp only at hu0
      unfold mergeLoop at hu0
      rw [M.bind_assoc, bind_ok (env u1)] at hu0
      exact fin (some _) hu0
  split at h
  · cases h
  · rename_i hy
    split at hy
    · cases hy
    · rename_i hz
      cases hy
      cases h
      simp only [run _ hz, Tree.pop, nodeAfterAll, optionsTold, nodeAfter]

/-- All that is told. -/
def allTold (E : Env) (sc : Scope) (ls : List Level) (root : Str) (opts : Entries) (lo : Option Entries) (st : Strategy) (ex : ExplOpts)
    (src : Str) (fs : List Str) : List Telling :=
  (if ex.options then [optionsTold E sc ls (lo.map .map)] else []) ++ (if ex.onlyOptions then [] else lookupTold E sc ls root opts lo st ::
    subKeyTold ⟨src, .name root :: fs.map .name⟩ fs ((outcome st ls root).map st.convertValue))

/-- All that is told by a lookup, and its result. -/
theorem explained_told (he : StatelessEnv E) {s : St} (hs : Session E s) (hl : s.v.locked = []) (htop : E.top = .mux)
    (hq : Question E sc ls root opts st) {stv : Strategy} (hst : getStrategy st none = .ok stv) {ex : ExplOpts}
    (hex : ex.options = false → ex.onlyOptions = false) (src : Str) (fs : List Str)
    {n : Nat} {r : Res (Option Value)} {t : St}
    (h : (eval E n).lookup ⟨src, .name root :: fs.map .name⟩ opts (nextInvocation s sc (some ex)) = some (r, t)) :
    ∃ lo : Option Entries, lo.bind (fun m => Entries.getS m "merge".toList) = (valuesOf ls "lookup_options".toList).findSome? (mergeIn root) ∧
      t.tree = .at (nodeAfterAll (allTold E sc ls root opts lo stv ex src fs) (.new .root)) [] := by
  obtain ⟨ho, htop', hroot, hr, hu, hopt, hm⟩ := hq
  obtain ⟨hf, hn⟩ : E.muxFns = some [.config, .env] ∧ NotEnv root := by
    rcases htop' with h | ⟨_, h1, h2⟩
    · rw [htop] at h; cases h
    · exact ⟨h1, h2⟩
  have hnk : newKey root = .ok ⟨root, [.name root]⟩ := by simpa [joinDots] using segments_key (xs := [root]) (by simp) (by simpa using hroot)
  have hsite := refSite_ordinary ho 0 (fun v hv => (hopt v hv).1)
  rw [newCfg_levels ho, Ans.of_ok_bind] at hsite
  obtain ⟨hs1, hs2⟩ := strategy_said (E := E) ho (k := ⟨root, [.name root]⟩) (ls.map (resolvedOf E sc)) (fun v hv => (hopt v hv).2) hm
  obtain ⟨_, hs3⟩ := options_said ho (fun v hv => (hopt v hv).2)
  generalize hx : (⟨ls.map (resolvedOf E sc), asMap (outcome (.deep []) ls "lookup_options".toList)⟩ : Site) = x at hsite hs1 hs2
  have hxo : x.optionsOf ⟨root, [.name root]⟩ = (asMap (outcome (.deep []) ls "lookup_options".toList)).bind (fun m => asMap (Entries.getS m root)) := by
    rw [← hx]
    show (match asMap (outcome (.deep []) ls "lookup_options".toList) with | some lo => asMap (Entries.getS lo root) | none => none) = _
    cases asMap (outcome (.deep []) ls "lookup_options".toList) <;> rfl
  rw [← hxo] at hs3
  have hlo : optionsOfBoth E x ⟨root, [.name root]⟩ = some (.ok ((x.optionsOf ⟨root, [.name root]⟩).map .map)) := by
    unfold optionsOfBoth
    rw [show (⟨root, [.name root]⟩ : Key).source = root from rfl, envLookup_none E hn]
    cases x.optionsOf ⟨root, [.name root]⟩ <;> rfl
  have hlm : asMap ((x.optionsOf ⟨root, [.name root]⟩).map .map) = x.optionsOf ⟨root, [.name root]⟩ := by
    cases x.optionsOf ⟨root, [.name root]⟩ <;> rfl
  obtain ⟨t1, g1, hJ, hmode, ⟨ho1, _⟩, h'⟩ := command_opens E he htop hf hs hl sc ex hex ⟨src, .name root :: fs.map .name⟩ hr opts
    (newCfg_levels ho) hsite hnk hlo h
  refine ⟨x.optionsOf ⟨root, [.name root]⟩, hs3, ?_⟩
  obtain ⟨c1, ht1, hc1⟩ : ∃ c1, t1.tree = .at c1 [] ∧
      c1 = nodeAfterAll (if ex.options then [optionsTold E sc ls ((x.optionsOf ⟨root, [.name root]⟩).map .map)] else []) (.new .root) := by
    cases hop : ex.options with
    | false =>
      have hq : Quiet (mergeM (.deep []) [LkFn.config, .env] (fun f => (eval E (n + 1)).lk f opts root)) :=
        (QuietRel.closed E).mergeM (.deep []) [LkFn.config, .env] _ (fun f => (eval E (n + 1)).lk f opts root)
          (fun f => (QuietRel.eval E (n + 1)).lk f opts root)
      have g1' := g1
      unfold forLookupOptions at g1'
      rw [bind_ok (show view (nextInvocation s sc (some ex)) = some (.ok _, _) from rfl), if_neg (by simp [nextInvocation])] at g1'
      exact ⟨_, (Silent.copy (ex := ex) hq _ explForOptions (by simp only [explForOptions, hop, hex hop]; rfl) _ _ _ rfl g1').2, rfl⟩
    | true =>
      have hinv := fresh_inv E hs hl sc
      exact ⟨_, options_recount he ho (fun v hv => (hopt v hv).1) n hop opts (envLookup_none E hn) (s := nextInvocation s sc (some ex)) rfl rfl
        (⟨rfl, hinv.scope, hinv.coh, (fun _ h => nomatch h), (fun h => nomatch h), fun h => ⟨(hinv.un h).1, (hinv.un h).2, (hinv.un h).3⟩⟩)
        rfl (newCfg_levels ho) hsite (by rw [← hx]) g1, rfl⟩
  rw [hlm] at h'
  rw [show (⟨src, .name root :: fs.map .name⟩ : Key).root = root from rfl] at h'
  unfold allTold
  rw [nodeAfterAll_two, ← hc1]
  cases hon : ex.onlyOptions with
  | true =>
    have quiet : ∀ {α : Type} {m : M α}, Quiet m → ∀ (s : St) r t, s.on = some ex → s.v.ic.mode = .top → forData m s = some (r, t) →
        t.on = some ex ∧ t.tree = s.tree ∧ t.v.ic.mode = .top := by
      intro α m hm s r t h1 h2 h3
      unfold forData at h3
      rw [bind_ok (show view s = some (.ok s.v, s) from rfl), if_neg (by rw [h2]; simp)] at h3
      have := Silent.copy hm _ explForData (by simp only [explForData, hon]; rfl) s r t h1 h3
      refine ⟨this.1, this.2, ?_⟩
      unfold withCopy at h3
      split at h3 <;> cases h3
      exact h2
    have q1 : Quiet (do
        let k ← lift (newKey root)
        withNode (.new .lookup k.source) (do
          setMergeStrategy (Entries.getS opts "merge".toList) (x.optionsOf ⟨root, [.name root]⟩)
          lookupAndConvert E (do
            let st ← currentStrategy
            mergeM st [.config, .env] (fun f => (eval E (n + 1)).lk f opts root)))) :=
      have hc := QuietRel.closed E
      hc.bind (hc.lift _) (fun k => hc.withNode _ (hc.bind (hc.setMergeStrategy _ _) (fun _ => hc.lookupAndConvert
        (hc.bind hc.currentStrategy (fun st => hc.mergeM _ _ _ _ (fun f => (QuietRel.eval E (n + 1)).lk f opts root))))))
    have q2 : ∀ v, Quiet (interpolate E (eval E (n + 1)) true v >>= fun r => dig ⟨src, .name root :: fs.map .name⟩ r) := fun v =>
      have hc := QuietRel.closed E
      hc.bind (hc.interpolate (QuietRel.eval E (n + 1)) v) (fun r => hc.dig _ _)
    cases hd : forData (do
        let k ← lift (newKey root)
        withNode (.new .lookup k.source) (do
          setMergeStrategy (Entries.getS opts "merge".toList) (x.optionsOf ⟨root, [.name root]⟩)
          lookupAndConvert E (do
            let st ← currentStrategy
            mergeM st [.config, .env] (fun f => (eval E (n + 1)).lk f opts root)))) t1 with
    | none => rw [bind_none hd] at h'; cases h'
    | some q =>
      obtain ⟨v, t2⟩ := q
      obtain ⟨e1, e2, e3⟩ := quiet q1 _ _ _ ho1 hmode hd
      cases v with
      | panic e => rw [bind_panic hd] at h'; cases h'; exact e2.trans ht1
      | ok v =>
        rw [bind_ok hd] at h'
        cases v with
        | none => cases h'; exact e2.trans ht1
        | some v => exact (quiet (q2 v) _ _ _ e1 e3 h').2.1.trans (e2.trans ht1)
  | false =>
    obtain ⟨rc, hrc, p1, _, _⟩ := (hJ.at_ x rfl).cfg
    obtain ⟨w, ⟨w1, w2, w3⟩, hw⟩ := lookup_recounts ho n hnk opts (lo := x.optionsOf ⟨root, [.name root]⟩) (st := stv) (by rw [hs1]; exact hst) hs2 hu
      (envLookup_none E hn) (s := t1) (ex := ex) hon ho1 ht1 hmode hJ.coh hrc (by rw [p1, ← hx])
    have h'' := h'
    rw [bind_ok hw] at h''
    have hclean := outcome_clean (p := fun s => ¬Marked s) stv hu
    cases hv : outcome stv ls root with
    | none =>
      rw [hv] at h''
      cases h''
      rfl
    | some y =>
      rw [hv] at h''
      dsimp only [Option.map_some] at h''
      have hpl : Plain (stv.convertValue y) := plain_of_unmarked (unmarked_iff (clean_convertValue stv (hclean y hv)))
      rw [interpolate_plain E _ true hpl, M.pure_bind] at h''
      unfold forData at h''
      rw [bind_ok (show view _ = some (.ok _, _) from rfl), if_neg (by dsimp only; rw [w1, hmode]; simp)] at h''
      unfold withCopy at h''
      obtain ⟨w', _, hd⟩ := dig_recounts (J := fun _ => True) src root fs (stv.convertValue y)
        ⟨{ w with ic := { w.ic with mode := .data } }, some ex, .at (nodeAfterAll [lookupTold E sc ls root opts (x.optionsOf ⟨root, [.name root]⟩) stv] c1) []⟩
        _ [] rfl rfl trivial
      rw [ho1, show explForData (some ex) = some ex by simp only [explForData, hon, Bool.false_eq_true, if_false], hd] at h''
      cases h''
      rw [Option.map_some, ← nodeAfterAll_two]
      rfl

end

/-! ### The text -/

theorem accounts_append (d : Nat) : ∀ ts us : List Telling, accounts d (ts ++ us) = accounts d ts ++ accounts d us
  | [], us => by simp only [List.nil_append, accounts]
  | t :: ts, us => by simp only [List.cons_append, accounts, accounts_append d ts us, List.append_assoc]

theorem accounts_map {told : Level → Telling} {lines : Level → List PageLine} {d : Nat} (h : ∀ l, account d (told l) = lines l) :
    ∀ ls : List Level, accounts d (ls.map told) = ls.flatMap lines
  | [] => by simp only [List.map_nil, accounts, List.flatMap_nil]
  | l :: ls => by simp only [List.map_cons, accounts, List.flatMap_cons, accounts_map h ls, h]

theorem accounts_merged (d : Nat) (v : Option Value) : accounts d (mergedTold v) = [] := by
  cases v <;> simp [mergedTold, accounts, account]

theorem account_found (d : Nat) (key : Str) (v : Option Value) : account d (foundTold key v) = [] := by
  cases v <;> simp [foundTold, account]

theorem account_level (E : Env) (sc : Scope) (key : Str) (d : Nat) (l : Level) : account d (levelTold E sc key l) = levelLines E sc key d l := by
  unfold levelTold levelLines
  cases l.data with
  | none => rfl
  | some es =>
    dsimp only
    cases Entries.getS es key <;> rfl

theorem ended_merged {ts : List Telling} (h : ∀ t ∈ ts, t.isOutcome = false) (v : Option Value) :
    ended (ts ++ mergedTold v) = v.map .merged := by
  unfold ended
  rw [List.filter_append, List.filter_eq_nil_iff.2 (fun t ht => by rw [h t ht]; decide), List.nil_append]
  cases v <;> rfl

theorem part_merged (ts : List Telling) (v : Option Value) : (ts ++ mergedTold v).countP Telling.isPart = ts.countP Telling.isPart := by
  rw [List.countP_append]
  cases v <;> rfl

theorem part_all {told : Level → Telling} (h : ∀ l, (told l).isPart = true) (ls : List Level) : (ls.map told).countP Telling.isPart = ls.length := by
  rw [List.countP_eq_length.2 (fun t ht => by obtain ⟨l, _, rfl⟩ := List.mem_map.1 ht; exact h l), List.length_map]

section
variable {told : Level → Telling} {lines : Nat → Level → List PageLine} (ht : ∀ d l, account d (told l) = lines d l)
  (hw : ∀ l, (told l).isPart = true ∧ (told l).isOutcome = false)
include ht hw

theorem accounts_many (d : Nat) (st : Strategy) (l l' : Level) (ls : List Level) (v : Option Value) :
    account d (.within (.merge st) [] ((l :: l' :: ls).map told ++ mergedTold v)) =
      saysStrategy d st ++ (l :: l' :: ls).flatMap (lines (d + 1)) ++ v.toList.map (fun v => (d + 1, said "Merged result: ".toList ++ [.inr v])) := by
  rw [account]
  have e : ((l :: l' :: ls).map told ++ mergedTold v).countP Telling.isPart = ls.length + 2 := by
    rw [part_merged, part_all (fun l => (hw l).1)]
    rfl
  rw [e]
  dsimp only
  rw [accounts_append, accounts_map (ht (d + 1)), accounts_merged, List.append_nil, ended_merged (fun t h => by
    obtain ⟨l, _, rfl⟩ := List.mem_map.1 h
    exact (hw l).2)]
  cases v <;> rfl

end

/-- The lines about the strategies with a name. -/
theorem accounts_search (E : Env) (sc : Scope) (key : Str) (d : Nat) {st : Str} {stv : Strategy} (hst : getStrategy st none = .ok stv)
    (hm : st ∈ ["first".toList, "unique".toList, "hash".toList, "deep".toList]) (ls : List Level) :
    accounts d (bothTold (levelTold E sc key) key stv ls) = searchLines E sc st key d ls (outcome stv ls key) := by
  have ha := fun d l => account_level E sc key d l
  have hw : ∀ l, (levelTold E sc key l).isPart = true ∧ (levelTold E sc key l).isOutcome = false := fun l => ⟨rfl, rfl⟩
  have one : ∀ l, accounts d [levelTold E sc key l] = levelLines E sc key d l := fun l => by
    simp only [accounts, ha, List.append_nil]
  have outer : ∀ (st : Strategy) (ts : List Telling) (v : Option Value), ts.countP Telling.isPart = 1 →
      accounts d [.within (.merge st) [] (ts ++ mergedTold v)] = accounts d ts := fun st ts v h => by
    simp only [accounts, account, part_merged, h, accounts_append, accounts_merged, List.append_nil]
  have rest : ∀ (name : Str) (st : Strategy), name ≠ "first".toList → saysStrategy d st = [(d, quoting "Merge strategy ".toList (name ++ " merge strategy".toList))] →
      bothTold (levelTold E sc key) key st ls =
        [.within (.merge st) [] (searchTold (levelTold E sc key) key st ls ++ mergedTold ((outcome st ls key).map st.convertValue))] →
      (∀ l l' ls, searchTold (levelTold E sc key) key st (l :: l' :: ls) =
        [.within (.merge st) [] ((l :: l' :: ls).map (levelTold E sc key) ++ mergedTold (outcome st (l :: l' :: ls) key))]) →
      accounts d (bothTold (levelTold E sc key) key st ls) = searchLines E sc name key d ls (outcome st ls key) := by
    intro name st hne hs hb h2
    rw [hb]
    unfold searchLines
    rw [if_neg hne]
    match ls with
    | [] =>
      have : (mergedTold ((outcome st [] key).map st.convertValue)).countP Telling.isPart = 0 := by
        cases outcome st [] key <;> rfl
      simp only [searchTold, List.nil_append, accounts, account, this]
    | [l] =>
      show accounts d [.within (.merge st) [] ([levelTold E sc key l] ++ mergedTold _)] = levelLines E sc key d l
      rw [outer st [levelTold E sc key l] _ rfl, one]
    | l :: l' :: ls =>
      rw [h2 l l' ls]
      rw [outer st [_] _ rfl]
      simp only [accounts, List.append_nil]
      rw [accounts_many ha hw, hs]
      rfl
  simp only [List.mem_cons, List.not_mem_nil, or_false] at hm
  rcases hm with rfl | rfl | rfl | rfl
  · cases hst
    unfold searchLines bothTold
    rw [if_pos rfl, accounts_append, accounts_merged, List.append_nil]
    match ls with
    | [] => rfl
    | [l] =>
      have : untilFound key [l] = [l] := by
        unfold untilFound
        cases l.data.bind (fun es => Entries.getS es key) <;> rfl
      rw [this, List.flatMap_singleton]
      exact one l
    | l :: l' :: ls =>
      show accounts d ((untilFound key (l :: l' :: ls)).map (levelTold E sc key) ++ mergedTold _) = _
      rw [accounts_append, accounts_merged, List.append_nil, accounts_map (ha d)]
  · cases hst
    exact rest _ .unique (by decide) rfl rfl (fun _ _ _ => rfl)
  · cases hst
    exact rest _ .hash (by decide) rfl rfl (fun _ _ _ => rfl)
  · cases hst
    exact rest _ (.deep []) (by decide) rfl rfl (fun _ _ _ => rfl)

theorem accounts_source (d : Nat) (ls : List Level) (key : Str) (opts : Entries) (lo : Option Entries)
    (h : lo.bind (fun m => Entries.getS m "merge".toList) = (valuesOf ls "lookup_options".toList).findSome? (mergeIn key)) :
    accounts d (sourceTold opts lo) = sourceLines ls key opts d := by
  unfold sourceTold sourceLines
  rw [h]
  cases Entries.getS opts "merge".toList with
  | some o => rfl
  | none => cases (valuesOf ls "lookup_options".toList).findSome? (mergeIn key) <;> rfl

theorem accounts_fields (d : Nat) : ∀ (fs : List Str) (v : Value), accounts d (fieldsTold fs v) = fieldLines d fs v
  | [], _ => by simp only [fieldsTold, accounts, fieldLines]
  | f :: fs, v => by
    simp only [fieldsTold, accounts, fieldLines]
    cases fieldOf [f] v with
    | none => rfl
    | some w =>
      dsimp only
      rw [accounts_fields d fs w]
      rfl

theorem dottedParts_names : ∀ fs : List Str, dottedParts (fs.map .name) = joinDots fs
  | [] => rfl
  | [f] => by simp [dottedParts, joinDots, List.intercalate]
  | f :: g :: fs => by
    have ih := dottedParts_names (g :: fs)
    unfold dottedParts at ih ⊢
    simp only [List.map_cons, List.intercalate, List.intersperse, List.flatten_cons] at ih ⊢
    show _ = f ++ '.' :: joinDots (g :: fs)
    rw [← ih]
    simp

theorem fields_plain : ∀ (fs : List Str) (v : Value), ∀ t ∈ fieldsTold fs v, t.isOutcome = false ∧ t.text = none ∧ Proper t
  | [], _, t, h => by simp [fieldsTold] at h
  | f :: fs, v, t, h => by
    simp only [fieldsTold] at h
    rcases List.mem_cons.1 h with rfl | h
    · refine ⟨rfl, rfl, .within trivial nofun nofun (by simp) (fun u hu => ?_)⟩
      rw [List.mem_singleton.1 hu]
      exact .accept (fun _ _ _ => by cases fieldOf [f] v <;> simp [foundTold])
    · cases hf : fieldOf [f] v with
      | none => rw [hf] at h; cases h
      | some w => rw [hf] at h; exact fields_plain fs w t h

theorem accounts_subKey (src root : Str) (fs : List Str) (v : Option Value) :
    accounts 0 (subKeyTold ⟨src, .name root :: fs.map .name⟩ fs v) = subKeyLines fs v := by
  cases v with
  | none => rfl
  | some v =>
    cases fs with
    | nil => rfl
    | cons f fs =>
      show accounts 0 [.within (.subLookup ⟨src, .name root :: (f :: fs).map .name⟩) [] (fieldsTold (f :: fs) v)] = _ :: _
      have hp := fields_plain (f :: fs) v
      have e1 : ended (fieldsTold (f :: fs) v) = none := by
        unfold ended
        rw [List.filter_eq_nil_iff.2 (fun t ht => by rw [(hp t ht).1]; decide)]
        rfl
      have e2 : remarkLines 1 (fieldsTold (f :: fs) v) = [] :=
        List.filterMap_eq_nil_iff.2 (fun t ht => by rw [(hp t ht).2.1]; rfl)
      simp only [accounts, account, e1, e2, accounts_fields, List.append_nil, outcomeLine, Nat.zero_add]
      rw [show (⟨src, .name root :: (f :: fs).map .name⟩ : Key).parts.tail = (f :: fs).map .name from rfl, dottedParts_names]

/-! ### What can be told -/

theorem merged_proper (v : Option Value) : ∀ t ∈ mergedTold v, Proper t ∧ t.keyOf = none := by
  cases v with
  | none => simp [mergedTold]
  | some x =>
    intro t ht
    rw [List.mem_singleton.1 ht]
    exact ⟨.accept (fun _ _ _ => by simp), rfl⟩

theorem level_proper (E : Env) (sc : Scope) (key : Str) (l : Level) : Proper (levelTold E sc key l) ∧ (levelTold E sc key l).keyOf = none := by
  refine ⟨.within trivial nofun nofun (by simp) (fun u hu => ?_), rfl⟩
  rw [List.mem_singleton.1 hu]
  refine .within trivial nofun nofun (by simp) (fun u hu => ?_)
  rw [List.mem_singleton.1 hu]
  refine .accept (fun _ _ _ => ?_)
  cases l.data with
  | none => simp
  | some es => dsimp only; cases Entries.getS es key <;> simp [foundTold]

theorem search_proper (E : Env) (sc : Scope) (key : Str) (st : Strategy) (ls : List Level) :
    ∀ t ∈ searchTold (levelTold E sc key) key st ls, Proper t ∧ t.keyOf = none := by
  have lev : ∀ (ls : List Level) (v : Option Value), ∀ t ∈ ls.map (levelTold E sc key) ++ mergedTold v, Proper t ∧ t.keyOf = none := by
    intro ls v t ht
    rcases List.mem_append.1 ht with ht | ht
    · obtain ⟨l, _, rfl⟩ := List.mem_map.1 ht
      exact level_proper E sc key l
    · exact merged_proper v t ht
  have node : ∀ (st : Strategy) (ls : List Level) (v : Option Value), ∀ t ∈ [Telling.within (.merge st) [] (ls.map (levelTold E sc key) ++ mergedTold v)],
      Proper t ∧ t.keyOf = none := by
    intro st ls v t ht
    rw [List.mem_singleton.1 ht]
    exact ⟨.within trivial nofun nofun (by simp) (fun u hu => (lev ls v u hu).1), rfl⟩
  match st, ls with
  | _, [] => cases st <;> simp [searchTold]
  | .first, [l] | .unique, [l] | .hash, [l] | .deep _, [l] =>
    intro t ht
    rw [List.mem_singleton.1 ht]
    exact level_proper E sc key l
  | .first, l :: l' :: ls => exact lev (untilFound key (l :: l' :: ls)) _
  | .unique, l :: l' :: ls => exact node _ (l :: l' :: ls) _
  | .hash, l :: l' :: ls => exact node _ (l :: l' :: ls) _
  | .deep o, l :: l' :: ls => exact node _ (l :: l' :: ls) _

theorem both_proper (E : Env) (sc : Scope) (key : Str) (st : Strategy) (ls : List Level) :
    ∀ t ∈ bothTold (levelTold E sc key) key st ls, Proper t ∧ t.keyOf = none := by
  have all : ∀ (st : Strategy) (v : Option Value), ∀ t ∈ searchTold (levelTold E sc key) key st ls ++ mergedTold v, Proper t ∧ t.keyOf = none := by
    intro st v t ht
    rcases List.mem_append.1 ht with ht | ht
    · exact search_proper E sc key st ls t ht
    · exact merged_proper v t ht
  have node : ∀ (st : Strategy) (v : Option Value), ∀ t ∈ [Telling.within (.merge st) [] (searchTold (levelTold E sc key) key st ls ++ mergedTold v)],
      Proper t ∧ t.keyOf = none := by
    intro st v t ht
    rw [List.mem_singleton.1 ht]
    exact ⟨.within trivial nofun nofun (by simp) (fun u hu => (all st v u hu).1), rfl⟩
  cases st with
  | first => exact all .first _
  | unique => exact node _ _
  | hash => exact node _ _
  | deep o => exact node _ _

theorem lookup_proper (E : Env) (sc : Scope) (ls : List Level) (root : Str) (opts : Entries) (lo : Option Entries) (st : Strategy) :
    Proper (lookupTold E sc ls root opts lo st) := by
  have src : ∀ t ∈ sourceTold opts lo, Proper t ∧ t.keyOf = none := by
    unfold sourceTold
    have one : ∀ (x : Str), ∀ t ∈ [Telling.source x], Proper t ∧ t.keyOf = none := fun x t ht => by
      rw [List.mem_singleton.1 ht]
      exact ⟨.accept (fun _ _ _ => by simp), rfl⟩
    cases Entries.getS opts "merge".toList with
    | some o => exact one _
    | none =>
      cases lo.bind (fun m => Entries.getS m "merge".toList) with
      | some o => exact one _
      | none => exact fun _ h => nomatch h
  have all : ∀ t ∈ sourceTold opts lo ++ bothTold (levelTold E sc root) root st ls, Proper t ∧ t.keyOf = none := fun t ht => by
    rcases List.mem_append.1 ht with ht | ht
    · exact src t ht
    · exact both_proper E sc root st ls t ht
  refine .within trivial nofun nofun (fun _ t ht k hk => ?_) (fun t ht => (all t ht).1)
  rw [(all t ht).2] at hk
  cases hk

theorem subKey_proper {src root : Str} {fs : List Str} (hk : newKey src = .ok ⟨src, .name root :: fs.map .name⟩) (v : Option Value) : ∀ t ∈ subKeyTold ⟨src, .name root :: fs.map .name⟩ fs v, Proper t ∧ t.text = none := by
  cases v with
  | none => exact fun _ h => nomatch h
  | some v =>
    cases fs with
    | nil => exact fun _ h => nomatch h
    | cons f fs =>
      intro t ht
      rw [List.mem_singleton.1 ht]
      exact ⟨.within hk nofun nofun (by simp) (fun u hu => (fields_plain (f :: fs) v u hu).2.2), rfl⟩

theorem levelOptions_proper (E : Env) (sc : Scope) (ls : List Level) : Proper (levelOptionsTold E sc ls) := by
  have all := search_proper E sc "lookup_options".toList (.deep []) ls
  refine .within trivial nofun nofun (fun _ t ht k hk => ?_) (fun t ht => (all t ht).1)
  rw [(all t ht).2] at hk
  cases hk

theorem options_proper (E : Env) (sc : Scope) (ls : List Level) (lo : Option Value) : Proper (optionsTold E sc ls lo) := by
  refine .within trivial nofun nofun (by simp) (fun t ht => ?_)
  rcases List.mem_append.1 ht with ht | ht
  · rw [List.mem_singleton.1 ht]
    exact levelOptions_proper E sc ls
  · exact (merged_proper lo t ht).1

theorem account_options (E : Env) (sc : Scope) (ls : List Level) (lo : Option Value) :
    account 0 (optionsTold E sc ls lo) = optionsLines E sc ls (outcome (.deep []) ls "lookup_options".toList) := by
  have h := accounts_search E sc "lookup_options".toList 1 (st := "deep".toList) (stv := .deep []) rfl (by decide) ls
  have hs : accounts 1 (searchTold (levelTold E sc "lookup_options".toList) "lookup_options".toList (.deep []) ls) =
      searchLines E sc "deep".toList "lookup_options".toList 1 ls (outcome (.deep []) ls "lookup_options".toList) := by
    rw [← h]
    unfold bothTold
    simp only [accounts, account, part_merged, List.append_nil]
    match ls with
    | [] => rfl
    | [l] => simp only [searchTold, accounts_append, accounts_merged, List.append_nil]; rfl
    | l :: l' :: ls => simp only [searchTold, accounts_append, accounts_merged, List.append_nil]; rfl
  unfold optionsTold
  rw [account, part_merged]
  show accounts 0 _ = _
  rw [accounts_append, accounts_merged, List.append_nil]
  unfold levelOptionsTold optionsLines
  simp only [accounts, account, List.append_nil, Nat.zero_add, hs]

/-- C115: in an ordinary set-up, what `--explain` prints for a key is determined by the levels and their data, line by line: the key that
is searched for; where the merge strategy is from, if the caller or the data says so; for each level that is asked, its file, the path as
it is written, and what the file has for the key; the strategy and the result, if there is something to merge; and for a dotted key its
fields, one after the other. With `--explain-options`, it is the levels and what they have as options; and with both, it is the one after
the other. There is nothing else. -/
theorem C115_explained {E : Env} (he : StatelessEnv E) {s : St} (hs : Session E s) (hl : s.v.locked = []) (htop : E.top = .mux) {sc : Scope}
    {ls : List Level} {root st : Str} {opts : Entries} (hq : Question E sc ls root opts st) (hm : Mergeable st (valuesOf ls root)) {fs : List Str}
    (hf : ∀ f ∈ fs, KeyPart f) (ex : ExplOpts) (hex : ex.onlyOptions = true → ex.options = true) :
    ∃ k lo merged v, newKey (joinDots (root :: fs)) = .ok k ∧ Textbook "deep".toList (valuesOf ls "lookup_options".toList) lo ∧
      Textbook st (valuesOf ls root) merged ∧ Textbook st (valuesOf ls root) v ∧
      Gives E (nextInvocation s sc (some ex)) k opts (.ok (v.bind (fieldOf fs))) ∧
      ∀ {n r t}, (eval E n).lookup k opts (nextInvocation s sc (some ex)) = some (r, t) →
        ∃ node w, t.tree = .at node [] ∧ node.render = .ok w ∧
          page w = askedLines ex (optionsLines E sc ls lo) (explanation E sc ls st root fs opts merged v) := by
  obtain ⟨stv, hst⟩ := mergeable_strategy hm
  obtain ⟨v, h1, h2⟩ := ordinary_answer he hs hl hq (joinDots (root :: fs)) fs (some ex) hst
  have hv : v = (outcome stv ls root).map stv.convertValue := by
    rcases h1 with ⟨h, _⟩ | ⟨_, h⟩
    · rw [htop] at h; cases h
    · exact h
  have hb := outcome_textbook (fun v hv => valuesOf_WF hq.setup hv) hst hm
  have hbo := outcome_textbook (st := "deep".toList) (stv := .deep []) (fun v hv => valuesOf_WF hq.setup (key := "lookup_options".toList) hv) rfl
    ⟨by decide, fun h => absurd h (by decide), fun h => absurd h (by decide)⟩
  have hk : newKey (joinDots (root :: fs)) = .ok ⟨joinDots (root :: fs), .name root :: fs.map .name⟩ :=
    segments_key (by simp) (List.forall_mem_cons.2 ⟨hq.part, hf⟩)
  refine ⟨_, outcome (.deep []) ls "lookup_options".toList, outcome stv ls root, v, hk, hbo.1, hb.1, by rw [hv]; exact hb.2, h2, ?_⟩
  intro n r t h
  obtain ⟨lo, e1, e3⟩ := explained_told he hs hl htop hq hst (fun h => by
    cases h' : ex.onlyOptions with
    | false => rfl
    | true => rw [hex h'] at h; cases h) (joinDots (root :: fs)) fs h
  have all : ∀ t ∈ allTold E sc ls root opts lo stv ex (joinDots (root :: fs)) fs, Proper t ∧ t.text = none := by
    intro t ht
    unfold allTold at ht
    rcases List.mem_append.1 ht with ht | ht <;> split at ht
    · rw [List.mem_singleton.1 ht]
      exact ⟨options_proper E sc ls _, rfl⟩
    · cases ht
    · cases ht
    · rcases List.mem_cons.1 ht with rfl | ht
      · exact ⟨lookup_proper E sc ls root opts lo stv, rfl⟩
      · exact subKey_proper hk _ t ht
  obtain ⟨node, w, a1, a2, a3⟩ := C108_told _ (fun t ht => (all t ht).1)
  have : Tree.new = .at (.new .root) [] := rfl
  rw [this, tellAll_at] at a1
  refine ⟨node, w, e3.trans (Option.some.inj a1), a2, a3.trans ?_⟩
  rw [show remarkLines 0 (allTold E sc ls root opts lo stv ex (joinDots (root :: fs)) fs) = [] from
    List.filterMap_eq_nil_iff.2 (fun t ht => by rw [(all t ht).2]; rfl), List.append_nil]
  have data : accounts 0 (lookupTold E sc ls root opts lo stv ::
      subKeyTold ⟨joinDots (root :: fs), .name root :: fs.map .name⟩ fs ((outcome stv ls root).map stv.convertValue)) =
      explanation E sc ls st root fs opts (outcome stv ls root) v := by
    unfold explanation lookupTold
    simp only [accounts, account, Nat.zero_add]
    rw [accounts_append, accounts_source 1 ls root opts lo e1, accounts_search E sc root 1 hst hm.1, accounts_subKey, ← hv]
    simp only [List.cons_append, List.append_assoc]
  unfold allTold askedLines
  rw [accounts_append]
  congr 1
  · split
    · simp only [accounts, List.append_nil, account_options]
    · rfl
  · split
    · rfl
    · exact data

/-! Not vacuous: the users of the set-up of C92, merged deeply, and one of them. With `*` for a value. -/

namespace Explained115
open Ordinary92

example : ∃ k lo merged v, newKey "app::users.eve".toList = .ok k ∧ Textbook "deep".toList (valuesOf levels "lookup_options".toList) lo ∧
    Textbook "deep".toList (valuesOf levels "app::users".toList) merged ∧ Textbook "deep".toList (valuesOf levels "app::users".toList) v ∧
    Gives world (nextInvocation (newInvocation scope none) scope (some ⟨true, false⟩)) k [] (.ok (v.bind (fieldOf ["eve".toList]))) ∧
    ∀ {n r t}, (eval world n).lookup k [] (nextInvocation (newInvocation scope none) scope (some ⟨true, false⟩)) = some (r, t) →
      ∃ node w, t.tree = .at node [] ∧ node.render = .ok w ∧
        page w = askedLines ⟨true, false⟩ (optionsLines world scope levels lo)
          (explanation world scope levels "deep".toList "app::users".toList ["eve".toList] [] merged v) :=
  C115_explained stateless (.start scope none) rfl rfl question mergeable (fs := ["eve".toList])
    (fun f hf => by cases List.mem_singleton.1 hf; exact ⟨by unfold Unquoted; decide, by decide, alpha_not_int (by decide)⟩) ⟨true, false⟩ nofun

example : (explanation world scope levels "deep".toList "app::users".toList ["eve".toList, "nose".toList] []
    (outcome (.deep []) levels "app::users".toList) (outcome (.deep []) levels "app::users".toList)).map pageText = [
    "Searching for \"app::users\"",
    "  Using merge options from \"lookup_options\" hash",
    "  Merge strategy \"deep merge strategy\"",
    "    data_hash function 'yaml_data'",
    "      Path \"/h/data/nodes/web.yaml\"",
    "        Original path: \"nodes/%{node.name}.yaml\"",
    "        Found key: \"app::users\" value: *",
    "    data_hash function 'yaml_data'",
    "      Path \"/h/data/sites/.yaml\"",
    "        Original path: \"sites/%{site}.yaml\"",
    "        path not found",
    "    data_hash function 'yaml_data'",
    "      Path \"/h/data/common.yaml\"",
    "        Original path: \"common.yaml\"",
    "        Found key: \"app::users\" value: *",
    "    Merged result: *",
    "Sub key: \"eve.nose\"",
    "  Found key: \"eve\" value: *",
    "  No such key: \"nose\""].map String.toList := by decide +kernel

example : (askedLines ⟨true, true⟩ (optionsLines world scope levels (outcome (.deep []) levels "lookup_options".toList)) []).map pageText = [
    "Searching for \"lookup_options\"",
    "  Merge strategy \"deep merge strategy\"",
    "    data_hash function 'yaml_data'",
    "      Path \"/h/data/nodes/web.yaml\"",
    "        Original path: \"nodes/%{node.name}.yaml\"",
    "        No such key: \"lookup_options\"",
    "    data_hash function 'yaml_data'",
    "      Path \"/h/data/sites/.yaml\"",
    "        Original path: \"sites/%{site}.yaml\"",
    "        path not found",
    "    data_hash function 'yaml_data'",
    "      Path \"/h/data/common.yaml\"",
    "        Original path: \"common.yaml\"",
    "        Found key: \"lookup_options\" value: *",
    "    Merged result: *"].map String.toList := by decide +kernel

end Explained115

end Hiera
