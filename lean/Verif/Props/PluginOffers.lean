/- C84: the functions that a plugin has are those that it has told of. -/
import Verif.Props.PluginRetry

set_option autoImplicit false

namespace Hiera.Plugin

/-- The kind of the functions that are told of under a name (the documentation of the protocol). -/
inductive Spec.KindNamed : Str → Kind → Prop
  | dig : KindNamed "data_dig".toList .dataDig
  | hash : KindNamed "data_hash".toList .dataHash
  | key {k : Str} : k ≠ "data_dig".toList → k ≠ "data_hash".toList → KindNamed k .lookupKey

/-- The meta-data tell of a function of a kind. -/
def Spec.Announces (m : Meta) (name : Str) (kind : Kind) : Prop :=
  ∃ fs k names, m.functions = some fs ∧ (k, some names) ∈ fs ∧ some name ∈ names ∧ KindNamed k kind

/-- The meta-data can be used: the protocol is the first, there are an address and functions, and all names are strings. -/
structure Spec.Fit (m : Meta) : Prop where
  version : m.version = some 1
  address : ∃ a, m.address = some a
  functions : ∃ fs, m.functions = some fs ∧ ∀ f ∈ fs, ∃ names, f.2 = some names ∧ ∀ n ∈ names, ∃ s, n = some s

/-- Where the plugin is spoken to, by its meta-data. -/
inductive Spec.SpeaksAt (m : Meta) : Str → Str → Prop
  | named {n a} : m.network = some n → m.address = some a → SpeaksAt m n a
  | tcp {a} : m.network = none → m.address = some a → SpeaksAt m "tcp".toList a

open Spec

theorem kindNamed_iff (k : Str) (kind : Kind) : KindNamed k kind ↔ kindOf k = kind := by
  unfold kindOf
  constructor
  · rintro (_ | _ | ⟨h1, h2⟩)
    · rfl
    · rfl
    · rw [if_neg h1, if_neg h2]
  · rintro rfl
    split
    · rename_i h; rw [h]; exact .dig
    · split
      · rename_i h; rw [h]; exact .hash
      · exact .key ‹_› ‹_›

theorem named_iff (k : Kind) (l : List (Option Str)) : (∀ r, named k l = .ok r → ∀ n kind, (n, kind) ∈ r ↔ some n ∈ l ∧ k = kind) ∧
    ((∃ r, named k l = .ok r) ↔ ∀ n ∈ l, ∃ s, n = some s) := by
  induction l with
  | nil => exact ⟨by rintro _ ⟨⟩; simp, by simp [named]⟩
  | cons x l ih =>
    cases x with
    | none => exact ⟨(by rintro _ ⟨⟩), ⟨(by rintro ⟨_, ⟨⟩⟩), fun h => nomatch h none (by simp)⟩⟩
    | some s =>
      rw [named]
      cases h : named k l with
      | error e =>
        refine ⟨(by rintro _ ⟨⟩), ⟨(by rintro ⟨_, ⟨⟩⟩), fun h' => ?_⟩⟩
        obtain ⟨r, hr⟩ := ih.2.2 (fun n hn => h' n (by simp [hn]))
        rw [h] at hr; cases hr
      | ok r =>
        refine ⟨?_, ⟨fun _ => ?_, fun _ => ⟨_, rfl⟩⟩⟩
        · rintro _ ⟨⟩ n kind
          have := ih.1 r h n kind
          simp only [List.mem_cons, Prod.mk.injEq, Option.some.injEq, this]
          constructor
          · rintro (⟨rfl, rfl⟩ | ⟨h, rfl⟩)
            · exact ⟨.inl rfl, rfl⟩
            · exact ⟨.inr h, rfl⟩
          · rintro ⟨rfl | h, rfl⟩
            · exact .inl ⟨rfl, rfl⟩
            · exact .inr ⟨h, rfl⟩
        · intro n hn
          rcases List.mem_cons.1 hn with rfl | hn
          · exact ⟨s, rfl⟩
          · exact ih.2.1 ⟨r, h⟩ n hn

theorem functionMap_iff (l : List (Str × Option (List (Option Str)))) :
    (∀ r, functionMap l = .ok r → ∀ n kind, (n, kind) ∈ r ↔ ∃ k names, (k, some names) ∈ l ∧ some n ∈ names ∧ KindNamed k kind) ∧
    ((∃ r, functionMap l = .ok r) ↔ ∀ f ∈ l, ∃ names, f.2 = some names ∧ ∀ n ∈ names, ∃ s, n = some s) := by
  induction l with
  | nil => exact ⟨by rintro _ ⟨⟩; simp, by simp [functionMap]⟩
  | cons x l ih =>
    obtain ⟨k, v⟩ := x
    cases v with
    | none => exact ⟨(by rintro _ ⟨⟩), ⟨(by rintro ⟨_, ⟨⟩⟩), fun h => by obtain ⟨_, ⟨⟩, _⟩ := h (k, none) (by simp)⟩⟩
    | some ns =>
      rw [functionMap]
      have hx := named_iff (kindOf k) ns
      cases h1 : named (kindOf k) ns with
      | error e =>
        refine ⟨(by rintro _ ⟨⟩), ⟨(by rintro ⟨_, ⟨⟩⟩), fun h => ?_⟩⟩
        obtain ⟨_, ⟨⟩, h⟩ := h (k, some ns) (by simp)
        obtain ⟨r, hr⟩ := hx.2.2 h
        rw [h1] at hr; cases hr
      | ok r =>
        dsimp only
        cases h2 : functionMap l with
        | error e =>
          refine ⟨(by rintro _ ⟨⟩), ⟨(by rintro ⟨_, ⟨⟩⟩), fun h => ?_⟩⟩
          obtain ⟨r, hr⟩ := ih.2.2 (fun f hf => h f (by simp [hf]))
          rw [h2] at hr; cases hr
        | ok r' =>
          refine ⟨?_, ⟨fun _ f hf => ?_, fun _ => ⟨_, rfl⟩⟩⟩
          · rintro _ ⟨⟩ n kind
            rw [List.mem_append, hx.1 r h1, ih.1 r' h2, ← kindNamed_iff]
            constructor
            · rintro (⟨h, hk⟩ | ⟨k', ns', h, hn, hk⟩)
              · exact ⟨k, ns, by simp, h, hk⟩
              · exact ⟨k', ns', by simp [h], hn, hk⟩
            · rintro ⟨k', ns', h, hn, hk⟩
              rcases List.mem_cons.1 h with h | h
              · cases h; exact .inl ⟨hn, hk⟩
              · exact .inr ⟨k', ns', h, hn, hk⟩
          · rcases List.mem_cons.1 hf with rfl | hf
            · exact ⟨ns, rfl, hx.2.1 ⟨r, h1⟩⟩
            · exact ih.2.1 ⟨r', h2⟩ f hf

/-- The plugin has been made from the meta-data. -/
def Spec.Made (m : Meta) (p : Plugin) : Prop := m.version = some 1 ∧ SpeaksAt m p.network p.addr ∧ m.functions = some p.functions

theorem initPlugin_iff (p : Plugin) (m : Meta) :
    (∀ q, initPlugin p m = .ok q → Made m q) ∧
      ((∃ q, initPlugin p m = .ok q) ↔ m.version = some 1 ∧ (∃ a, m.address = some a) ∧ ∃ fs, m.functions = some fs) := by
  unfold initPlugin
  by_cases hv : m.version = some protoVersion
  · rw [if_neg (not_not_intro hv)]
    cases ha : m.address with
    | none => exact ⟨(by rintro _ ⟨⟩), ⟨(by rintro ⟨_, ⟨⟩⟩), (by rintro ⟨_, ⟨_, ⟨⟩⟩, _⟩)⟩⟩
    | some a =>
      dsimp only
      cases hf : m.functions with
      | none => exact ⟨(by rintro _ ⟨⟩), ⟨(by rintro ⟨_, ⟨⟩⟩), (by rintro ⟨_, _, _, ⟨⟩⟩)⟩⟩
      | some f =>
        refine ⟨?_, ⟨fun _ => ⟨hv, ⟨a, rfl⟩, f, rfl⟩, fun _ => ⟨_, rfl⟩⟩⟩
        rintro _ ⟨⟩
        refine ⟨hv, ?_, hf⟩
        cases hn : m.network with
        | none => exact .tcp hn ha
        | some n => exact .named hn ha
  · rw [if_pos hv]
    exact ⟨(by rintro _ ⟨⟩), ⟨(by rintro ⟨_, ⟨⟩⟩), fun h => absurd h.1 hv⟩⟩

theorem Spec.SpeaksAt.address {m : Meta} {n a : Str} (h : SpeaksAt m n a) : ∃ a, m.address = some a := by
  induction h with
  | named _ h => exact ⟨_, h⟩
  | tcp _ h => exact ⟨_, h⟩

/-- What the functions are, of a plugin made from the meta-data. -/
theorem Spec.Made.offers {m : Meta} {p : Plugin} (h : Made m p) :
    (∀ fm, functionMap p.functions = .ok fm → ∀ n kind, (n, kind) ∈ fm ↔ Announces m n kind) ∧ ((∃ fm, functionMap p.functions = .ok fm) ↔ Fit m) := by
  obtain ⟨hv, ha, hf⟩ := h
  have hx := functionMap_iff p.functions
  constructor
  · intro fm hfm n kind
    rw [hx.1 fm hfm]
    constructor
    · rintro ⟨k, ns, h1, h2, h3⟩; exact ⟨_, k, ns, hf, h1, h2, h3⟩
    · rintro ⟨fs, k, ns, h0, h1, h2, h3⟩
      rw [hf] at h0; cases h0
      exact ⟨k, ns, h1, h2, h3⟩
  · rw [hx.2]
    constructor
    · intro h
      exact ⟨hv, ha.address, _, hf, h⟩
    · rintro ⟨_, _, fs, h0, h1⟩
      rw [hf] at h0; cases h0
      exact h1

theorem started_made {path : Str} {pid : Nat} {a : Answer} {p : Plugin} (h : (started path pid a).2 = some p) :
    ∃ m, a = .answered m ∧ Made m p := by
  unfold started at h
  cases a <;> simp only at h
  case answered mt =>
    split at h
    · exact nomatch h
    · next q hq => cases h; exact ⟨mt, rfl, (initPlugin_iff _ _).1 _ hq⟩
  all_goals exact nomatch h

/-- Every registered plugin has been made from meta-data that were answered when it was started. -/
def Spec.AllMade (ops : List Op) (w : World) : Prop :=
  ∀ path i p, lookupReg path w.reg = some i → w.plugins[i]? = some p → ∃ m, .start path (.answered m) ∈ ops ∧ Made m p

theorem AllMade.mono {ops ops' : List Op} (hs : ∀ op ∈ ops, op ∈ ops') {w : World} (h : AllMade ops w) : AllMade ops' w :=
  fun path i p hr hp => let ⟨m, hm, hd⟩ := h path i p hr hp; ⟨m, hs _ hm, hd⟩

theorem AllMade.start {ops : List Op} {w : World} (hi : Inv w) (h : AllMade ops w) (path : Str) (a : Answer) :
    AllMade (ops ++ [.start path a]) (startPlugin path a w).2 := by
  have h' : AllMade (ops ++ [.start path a]) w := AllMade.mono (by simp +contextual) h
  cases hr : lookupReg path w.reg with
  | some i =>
    obtain ⟨p, hp, _⟩ := hi.reg path i (lookupReg_mem hr)
    rw [startPlugin_reg hr hp]; exact h'
  | none =>
    by_cases h1 : a = .noPipe
    · subst h1; rw [startPlugin_noPipe hr]; exact h'
    by_cases h2 : a = .noStart
    · subst h2; rw [startPlugin_noStart hr]; exact h'
    obtain ⟨_, e1, e2⟩ := startPlugin_body hr h1 h2
    intro path' i p hr' hp
    rw [e1] at hr'
    rw [e2] at hp
    cases hs : (started path w.procs.length a).2 with
    | none => rw [hs] at hr' hp; exact h' path' i p hr' hp
    | some q =>
      rw [hs] at hr' hp
      dsimp only at hr' hp
      unfold lookupReg at hr'
      split at hr'
      · rename_i he
        cases hr'; subst he
        rw [List.getElem?_append_right (Nat.le_refl _), Nat.sub_self] at hp
        cases hp
        obtain ⟨m, rfl, hm⟩ := started_made hs
        exact ⟨m, by simp, hm⟩
      · obtain ⟨p', hp', _⟩ := hi.reg path' i (lookupReg_mem hr')
        have hlt : i < w.plugins.length := by
          by_contra hge
          rw [List.getElem?_eq_none (by omega)] at hp'; cases hp'
        rw [List.getElem?_append_left hlt] at hp
        exact h' path' i p hr' hp

theorem AllMade.after (ops : List Op) : ∀ {pre : List Op} {w w' : World}, Inv w → AllMade pre w → w.after ops = some w' → AllMade (pre ++ ops) w' := by
  induction ops with
  | nil => intro pre w w' _ h e; cases e; rw [List.append_nil]; exact h
  | cons op ops ih =>
    intro pre w w' hi h e
    have key : ∀ w1, op.run w = some w1 → AllMade (pre ++ [op]) w1 := by
      intro w1 h1
      cases op with
      | start path a => cases h1; exact AllMade.start hi h path a
      | stop how =>
        unfold Op.run stopAll at h1
        dsimp only at h1
        split at h1
        · cases h1
        · cases h1; intro path i p hr; cases hr
      | exit pid =>
        cases h1
        exact AllMade.mono (by simp +contextual) h
    rw [World.after] at e
    obtain ⟨w1, hw1, hi1⟩ := hi.run op
    rw [hw1] at e
    have := ih hi1 (key w1 hw1) e
    rwa [List.append_assoc] at this

/-- **C84**: whatever has happened in a session, the functions that starting a plugin gives are those, of those kinds, that the plugin has
told of when it was started, now or before; and it has spoken the first version of the protocol. -/
theorem C84_announced (ops : List Op) (w : World) (h : World.init.after ops = some w) (path : Str) (a : Answer) (fm : List (Str × Kind))
    (hs : (startPlugin path a w).1 = .ok fm) :
    ∃ m, .start path (.answered m) ∈ ops ++ [.start path a] ∧ Fit m ∧ ∀ n kind, (n, kind) ∈ fm ↔ Announces m n kind := by
  have hi := Inv.of_after h
  have hm : AllMade ops w := by
    have := AllMade.after ops Inv.init (pre := []) (fun path i p hr => nomatch hr) h
    rwa [List.nil_append] at this
  cases hr : lookupReg path w.reg with
  | some i =>
    obtain ⟨p, hp, _⟩ := hi.reg path i (lookupReg_mem hr)
    rw [startPlugin_reg hr hp] at hs
    obtain ⟨m, h1, h2⟩ := hm path i p hr hp
    exact ⟨m, by simp [h1], h2.offers.2.1 ⟨fm, hs⟩, h2.offers.1 fm hs⟩
  | none =>
    by_cases h1 : a = .noPipe
    · subst h1; rw [startPlugin_noPipe hr] at hs; cases hs
    by_cases h2 : a = .noStart
    · subst h2; rw [startPlugin_noStart hr] at hs; cases hs
    rw [(startPlugin_body hr h1 h2).1] at hs
    obtain ⟨p, hp, hfm⟩ := started_ok hs
    obtain ⟨m, rfl, hd⟩ := started_made hp
    exact ⟨m, by simp, hd.offers.2.1 ⟨fm, hfm⟩, hd.offers.1 fm hfm⟩

/-- **C84**: where a plugin is not registered it can be started if, and only if, its meta-data can be used. -/
theorem C84_fit (w : World) (path : Str) (hr : ∀ i, (path, i) ∉ w.reg) (m : Meta) :
    (∃ fm, (startPlugin path (.answered m) w).1 = .ok fm) ↔ Fit m := by
  have hr : lookupReg path w.reg = none := by
    cases h : lookupReg path w.reg with
    | none => rfl
    | some i => exact absurd (lookupReg_mem h) (hr i)
  rw [(startPlugin_body hr (by simp) (by simp)).1]
  unfold started
  dsimp only
  have hx := initPlugin_iff { locked := false, process := some w.procs.length, path := path, addr := [], network := [], functions := [], kills := 0 } m
  cases hp : initPlugin { locked := false, process := some w.procs.length, path := path, addr := [], network := [], functions := [], kills := 0 } m with
  | error e =>
    refine ⟨(by rintro ⟨_, ⟨⟩⟩), fun hf => ?_⟩
    obtain ⟨q, hq⟩ := hx.2.2 ⟨hf.version, hf.address, hf.functions.imp (fun _ h => h.1)⟩
    rw [hp] at hq; cases hq
  | ok q => exact (hx.1 q hp).offers.2

/-- **C84**: a plugin that has been started is spoken to at the address, and in the network, that it has told of; TCP where it has not told. -/
theorem C84_address (ops : List Op) (w : World) (h : World.init.after ops = some w) (path : Str) (i : Nat) (p : Plugin) (hr : (path, i) ∈ w.reg)
    (hp : w.plugins[i]? = some p) : ∃ m, .start path (.answered m) ∈ ops ∧ m.version = some 1 ∧ SpeaksAt m p.network p.addr := by
  have hi := Inv.of_after h
  have hm : AllMade ops w := by
    have := AllMade.after ops Inv.init (pre := []) (fun path i p hr => nomatch hr) h
    rwa [List.nil_append] at this
  have hl : lookupReg path w.reg = some i := by
    cases h : lookupReg path w.reg with
    | none => exact absurd hr (lookupReg_none h i)
    | some j => rw [reg_inj hi.keys (lookupReg_mem h) hr]
  obtain ⟨m, h1, h2, h3, _⟩ := hm path i p hl hp
  exact ⟨m, h1, h2, h3⟩

/-- Not vacuous: a plugin with functions of each kind, started twice. -/
example : let m : Meta := ⟨some 1, some "127.0.0.1:80".toList, none,
      some [("data_dig".toList, some [some "d".toList]), ("lookup_key".toList, some [some "k".toList, some "l".toList])]⟩
    Fit m ∧ ∃ w, World.init.after [.start "/a".toList (.answered m)] = some w ∧
      (startPlugin "/a".toList .timeout w).1 = .ok [("d".toList, .dataDig), ("k".toList, .lookupKey), ("l".toList, .lookupKey)] ∧
      (startPlugin "/b".toList (.answered { m with version := some 2 }) w).1 = .error .protocol := by
  refine ⟨⟨rfl, ⟨_, rfl⟩, _, rfl, by simp⟩, _, rfl, rfl, rfl⟩

end Hiera.Plugin
