/- Which configuration files are well-formed. -/
import Verif.Spec.Config

set_option autoImplicit false

namespace Hiera.Spec

def Letter (c : Char) : Prop := ('a' ≤ c ∧ c ≤ 'z') ∨ ('A' ≤ c ∧ c ≤ 'Z')

def Digit (c : Char) : Prop := '0' ≤ c ∧ c ≤ '9'

/-- The name of an option: a letter, or a letter and then, after a colon or not, letters, digits, `_` and `-`, of which the last is
a letter or a digit. -/
inductive OptionName : Str → Prop
  | letter {c} : Letter c → OptionName [c]
  | word {c colon mid d} : Letter c → colon = [] ∨ colon = [':'] → (∀ x ∈ mid, Letter x ∨ Digit x ∨ x = '_' ∨ x = '-') →
      Letter d ∨ Digit d → OptionName (c :: colon ++ mid ++ [d])

/-- Data: nothing sensitive, and the keys of hashes are strings. -/
inductive PlainData : Value → Prop
  | atom {v} : (∀ es, v ≠ .arr es) → (∀ es, v ≠ .map es) → (∀ x, v ≠ .sensitive x) → PlainData v
  | arr {es} : (∀ v ∈ es, PlainData v) → PlainData (.arr es)
  | map {es} : (∀ k v, (k, v) ∈ es → ∃ s, k = .str s) → (∀ k v, (k, v) ∈ es → PlainData v) → PlainData (.map es)

/-- A string that is not empty. -/
def SomeText (v : Value) : Prop := ∃ s, v = .str s ∧ s ≠ []

/-- Options: a hash of data by names of options. -/
def WellOptions (v : Value) : Prop := ∃ es, v = .map es ∧ ∀ k x, (k, x) ∈ es → (∃ s, k = .str s ∧ OptionName s) ∧ PlainData x

/-- What there may be in the defaults. -/
def DefaultsMember (k : Str) (v : Value) : Prop :=
  (k = "options".toList ∧ WellOptions v) ∨
  (k ∈ ["data_dig".toList, "data_hash".toList, "lookup_key".toList, "datadir".toList, "plugindir".toList] ∧ SomeText v)

/-- What there may be in an entry of a hierarchy. -/
def EntryMember (k : Str) (v : Value) : Prop :=
  DefaultsMember k v ∨
  (k ∈ ["name".toList, "pluginfile".toList, "path".toList, "glob".toList, "uri".toList] ∧ SomeText v) ∨
  (k ∈ ["paths".toList, "globs".toList, "uris".toList] ∧ ∃ vs, v = .arr vs ∧ vs ≠ [] ∧ ∀ x ∈ vs, SomeText x) ∨
  (k = "mapped_paths".toList ∧ ∃ a b c, v = .arr [a, b, c] ∧ SomeText a ∧ SomeText b ∧ SomeText c)

def WellDefaults (v : Value) : Prop := ∃ es, v = .map es ∧ ∀ k x, (k, x) ∈ es → ∃ n, k = .str n ∧ DefaultsMember n x

/-- An entry has a name. -/
def WellEntry (v : Value) : Prop := ∃ es, v = .map es ∧ Has es "name".toList ∧ ∀ k x, (k, x) ∈ es → ∃ n, k = .str n ∧ EntryMember n x

def WellHierarchy (v : Value) : Prop := ∃ vs, v = .arr vs ∧ ∀ x ∈ vs, WellEntry x

/-- A configuration file: the version is 5, and what else there may be is well-formed. -/
structure WellFormed (es : Entries) : Prop where
  version : (Value.str "version".toList, Value.int 5) ∈ es
  members : ∀ k v, (k, v) ∈ es → ∃ n, k = .str n ∧ (n = "version".toList ∨ (n = "defaults".toList ∧ WellDefaults v) ∨
    (n ∈ ["hierarchy".toList, "default_hierarchy".toList] ∧ WellHierarchy v))

end Hiera.Spec
