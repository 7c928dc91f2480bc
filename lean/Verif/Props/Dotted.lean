/- Keys with several segments, and the function `scope`. -/
import Verif.Props.Key
import Verif.Props.Lookup
import Verif.Spec.History

set_option autoImplicit false

namespace Hiera

open Value Spec World

/-! ### Keys with several segments -/

/-- What a lookup of a key with further segments gives, if a lookup of its first segment gives `r`. -/
inductive Spec.Under (ps : List Part) : Res (Option Value) → Res (Option Value) → Prop
  | fails (e : Err) : Under ps (.panic e) (.panic e)
  | nothing : Under ps (.ok none) (.ok none)
  | found {v w : Value} : FollowPath ps v w → Under ps (.ok (some v)) (.ok (some w))
  | missing {v : Value} : (∀ w, ¬FollowPath ps v w) → Under ps (.ok (some v)) (.ok none)

/-- The key that consists of the first segment. -/
def Spec.firstOf (k : Key) : Key := ⟨k.root, [.name k.root]⟩

theorem lookup_dotted (E : Env) (n : Nat) (k : Key) (o : Entries) (s : St) (ho : s.on = none) :
    (eval E n).lookup k o s = match (eval E n).lookup (firstOf k) o s with
      | none => none
      | some (.panic e, t) => some (.panic e, t)
      | some (.ok v, t) => some (.ok (v.bind k.digPure), t) := by
  cases n with
  | zero => rfl
  | succ n =>
    show lookup E (eval E n) k o s = match lookup E (eval E n) (firstOf k) o s with
      | none => none
      | some (.panic e, t) => some (.panic e, t)
      | some (.ok v, t) => some (.ok (v.bind k.digPure), t)
    unfold lookup
    have hr : (firstOf k).root = k.root := rfl
    rw [hr]
    by_cases hk : k.root = "lookup_options".toList
    · rw [if_pos hk, if_pos hk, Quiet.off_withNode ho, Quiet.off_withNode ho]
      rw [bind_ok (Quiet.off_report ho), bind_ok (Quiet.off_report ho)]
      rfl
    · rw [if_neg hk, if_neg hk, bind_def, bind_def]
      cases hc : callLk E (eval E n) E.top o k.root s with
      | none => rfl
      | some x =>
        obtain ⟨a | e, t⟩ := x
        · have ht : t.on = none := ((QuietRel.closed E).callLk (QuietRel.eval E n) E.top o k.root s _ t ho hc).1
          cases a with
          | none => rfl
          | some v =>
            dsimp only
            have key : ∀ u : St, u.on = none → (interpolate E (eval E n) true v >>= fun r => dig k r) u =
                match (interpolate E (eval E n) true v >>= fun r => dig (firstOf k) r) u with
                | none => none
                | some (.panic e, t) => some (.panic e, t)
                | some (.ok v, t) => some (.ok (v.bind k.digPure), t) := by
              intro u hu
              rw [bind_def, bind_def]
              cases hi : interpolate E (eval E n) true v u with
              | none => rfl
              | some y =>
                obtain ⟨b | e, w⟩ := y
                · have hw : w.on = none := ((QuietRel.closed E).interpolate (QuietRel.eval E n) v u _ w hu hi).1
                  dsimp only
                  cases b with
                  | none => rw [dig_none k w hw, dig_none (firstOf k) w hw]; rfl
                  | some b => rw [dig_quiet k b w hw, dig_quiet (firstOf k) b w hw]; rfl
                · rfl
            unfold forData
            rw [bind_ok (show view t = some (.ok t.v, t) from rfl), bind_ok (show view t = some (.ok t.v, t) from rfl)]
            split
            · exact key t ht
            · unfold withCopy
              rw [key _ (by rw [ht]; rfl)]
              cases (interpolate E (eval E n) true v >>= fun r => dig (firstOf k) r)
                { t with v := { t.v with ic := { t.v.ic with mode := .data } }, on := explForData t.on } with
              | none => rfl
              | some y => obtain ⟨b | e, w⟩ := y <;> rfl
        · rfl

/-- C79: what a lookup of a key with several segments gives is what is found by following the other segments in what a lookup
of the first segment gives, whatever the hierarchy, the strategy and the functions. -/
theorem C79_dotted (E : Env) (k : Key) (o : Entries) (s : St) (ho : s.on = none)
    (hw : ∀ v, Gives E s (firstOf k) o (.ok (some v)) → v.WF) (r : Res (Option Value)) :
    Gives E s k o r ↔ ∃ r0, Gives E s (firstOf k) o r0 ∧ Under k.parts.tail r0 r := by
  constructor
  · rintro ⟨n, t, h⟩
    rw [lookup_dotted E n k o s ho] at h
    cases hf : (eval E n).lookup (firstOf k) o s with
    | none => rw [hf] at h; cases h
    | some x =>
      rw [hf] at h
      obtain ⟨a | e, u⟩ := x
      · cases h
        refine ⟨_, ⟨n, _, hf⟩, ?_⟩
        cases a with
        | none => exact .nothing
        | some v =>
          have hv := hw v ⟨n, _, hf⟩
          show Under _ _ (.ok (k.digPure v))
          cases hd : k.digPure v with
          | none => exact .missing (fun w hp => by rw [(C06_dig k v w hv).2 hp] at hd; cases hd)
          | some w => exact .found ((C06_dig k v w hv).1 hd)
      · cases h
        exact ⟨_, ⟨n, _, hf⟩, .fails e⟩
  · rintro ⟨r0, ⟨n, t, h⟩, hu⟩
    have hl := lookup_dotted E n k o s ho
    rw [h] at hl
    cases hu with
    | fails e => exact ⟨n, t, hl⟩
    | nothing => exact ⟨n, t, hl⟩
    | found hp =>
      refine ⟨n, t, ?_⟩
      rw [hl]
      show some (Res.ok (k.digPure _), t) = _
      rw [(C06_dig k _ _ (hw _ ⟨n, t, h⟩)).2 hp]
    | @missing v hp =>
      refine ⟨n, t, ?_⟩
      rw [hl]
      show some (Res.ok (k.digPure v), t) = _
      cases hd : k.digPure v with
      | none => rfl
      | some w => exact absurd ((C06_dig k v w (hw v ⟨n, t, h⟩)).1 hd) (hp w)

/-- Not vacuous: keys with several segments, one of which is there and others not, in a hash that is merged from two files. -/
def dottedWorld : Env :=
  two [(s "lookup_options", .map [(s "m", .map [(s "merge", s "deep")])]), (s "m", .map [(s "a", .arr [s "x", s "%{v}"])])]
    [(s "m", .map [(s "b", .map [(s "c", .int 2)])])]

example : ((eval dottedWorld 4).lookup ⟨"m.a.1".toList, [.name "m".toList, .name "a".toList, .idx 1]⟩ [] (st [(s "v", s "y")])).map Prod.fst =
      some (.ok (some (s "y"))) ∧
    ((eval dottedWorld 4).lookup ⟨"m.b.c".toList, [.name "m".toList, .name "b".toList, .name "c".toList]⟩ [] (st [])).map Prod.fst =
      some (.ok (some (.int 2))) ∧
    ((eval dottedWorld 4).lookup ⟨"m.b.d".toList, [.name "m".toList, .name "b".toList, .name "d".toList]⟩ [] (st [])).map Prod.fst =
      some (.ok none) ∧
    ((eval dottedWorld 4).lookup ⟨"m".toList, [.name "m".toList]⟩ [] (st [(s "v", s "y")])).map Prod.fst =
      some (.ok (some (.map [(s "a", .arr [s "x", s "y"]), (s "b", .map [(s "c", .int 2)])]))) := by
  decide +kernel

/-! ### The function `scope` -/

/-- C80: an entry with the function `scope` gives the variable with the name of the key's first segment, as it is in the
scope of the invocation, wherever its locations are, whatever has been looked up before; nothing is kept but the record of
the call. -/
theorem C80_entry (E : Env) (rec : Rec) (p : Prov) (loc : Option Loc) (k : Key) (s : St) (ho : s.on = none)
    (hp : p.entry.function = some (.lookupKey, "scope".toList)) :
    provLookup E rec p loc k s = some (.ok (s.v.ic.scope.get k.root),
      { s with v := { s.v with trace := s.v.trace ++ [.key "scope".toList (optionsFor p loc) k.root] } }) := by
  unfold provLookup
  rw [hp]
  dsimp only
  unfold lookupKeyLookup
  rw [if_neg (by decide), if_pos rfl]
  rw [bind_ok (show emit (.key "scope".toList (optionsFor p loc) k.root) s =
    some (.ok (), { s with v := { s.v with trace := s.v.trace ++ [.key "scope".toList (optionsFor p loc) k.root] } }) from rfl)]
  rw [bind_ok (show view _ = some (.ok _, _) from rfl)]
  cases hg : s.v.ic.scope.get k.root with
  | none =>
    unfold reportResult
    dsimp only
    rw [bind_ok (Quiet.off_report (by exact ho))]
    rfl
  | some x =>
    unfold reportResult
    dsimp only
    rw [bind_ok (Quiet.off_report (by exact ho))]
    rfl

/-- C80: with the function `scope` as a provider of its own (as the REST server and the command line may be given), a lookup
gives what is under the key's other segments in the variable named by the first one. -/
theorem C80_top (E : Env) (ht : E.top = .scope) (k : Key) (hk : k.root ≠ "lookup_options".toList) (o : Entries) (s : St)
    (ho : s.on = none) (hs : ∀ x, s.v.ic.scope.get k.root = some x → Plain x ∧ x.WF) (r : Res (Option Value)) :
    Gives E s k o r ↔ Under k.parts.tail (.ok (s.v.ic.scope.get k.root)) r := by
  have hl : ∀ n, ((eval E (n + 1)).lookup k o s).map Prod.fst = some (.ok ((s.v.ic.scope.get k.root).bind k.digPure)) := by
    intro n
    show (lookup E (eval E n) k o s).map Prod.fst = _
    unfold lookup
    rw [if_neg hk, ht]
    have hc : callLk E (eval E n) .scope o k.root s = some (.ok (s.v.ic.scope.get k.root), s) := rfl
    rw [bind_ok hc]
    cases hg : s.v.ic.scope.get k.root with
    | none => rfl
    | some x =>
      have hx := (hs x hg).1
      have key : ∀ u : St, u.on = none → (interpolate E (eval E n) true x >>= fun r => dig k r) u = some (.ok (k.digPure x), u) := by
        intro u hu
        have hi : interpolate E (eval E n) true x u = some (.ok (some x), u) := by rw [interpolate_plain E _ true hx]; rfl
        rw [bind_ok hi, dig_quiet k x u hu]
      dsimp only
      unfold forData
      rw [bind_ok (show view s = some (.ok s.v, s) from rfl)]
      split
      · rw [key s ho]; rfl
      · unfold withCopy
        rw [key _ (by rw [ho]; rfl)]
        rfl
  have hgive : Gives E s k o r ↔ r = .ok ((s.v.ic.scope.get k.root).bind k.digPure) := by
    constructor
    · rintro ⟨n, t, h⟩
      cases n with
      | zero => cases h
      | succ n =>
        have := hl n
        rw [h] at this
        exact Option.some.inj this
    · rintro rfl
      have := hl 0
      cases h : (eval E 1).lookup k o s with
      | none => rw [h] at this; cases this
      | some x =>
        obtain ⟨y, t⟩ := x
        rw [h] at this
        cases this
        exact ⟨1, t, h⟩
  rw [hgive]
  cases hg : s.v.ic.scope.get k.root with
  | none =>
    constructor
    · rintro rfl; exact .nothing
    · intro h; cases h; rfl
  | some x =>
    have hx := (hs x hg).2
    show r = .ok (k.digPure x) ↔ _
    constructor
    · rintro rfl
      cases hd : k.digPure x with
      | none => exact .missing (fun w hp => by rw [(C06_dig k x w hx).2 hp] at hd; cases hd)
      | some w => exact .found ((C06_dig k x w hx).1 hd)
    · intro h
      cases h with
      | found hp => rw [(C06_dig k x _ hx).2 hp]
      | missing hp =>
        cases hd : k.digPure x with
        | none => rfl
        | some w => exact absurd ((C06_dig k x w hx).1 hd) (hp w)

/-- A hierarchy with data above the variables. -/
def variablesWorld : Env :=
  mk (cfg [entry "a" "a.yaml", .map [(s "name", s "v"), (s "lookup_key", s "scope")]])
    [("/h/data/a.yaml".toList, .map [(s "x", .int 1)])]

/-- Not vacuous: data wins over a variable; a variable is found, also under a further segment; what is no variable is not
found. -/
example : ask variablesWorld 3 "x" [(s "x", .int 2)] = some (.ok (some (.int 1))) ∧
    ask variablesWorld 3 "y" [(s "y", .map [(s "z", .int 3)])] = some (.ok (some (.map [(s "z", .int 3)]))) ∧
    ((eval variablesWorld 3).lookup ⟨"y.z".toList, [.name "y".toList, .name "z".toList]⟩ [] (st [(s "y", .map [(s "z", .int 3)])])).map Prod.fst =
      some (.ok (some (.int 3))) ∧
    ask variablesWorld 3 "w" [(s "y", .int 3)] = some (.ok none) := by
  decide +kernel

end Hiera
