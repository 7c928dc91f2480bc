/-
  Specification of key syntax, independent of the parser: a key is a non-empty sequence of segments joined with dots,
  a segment is a sequence of pieces, a piece is a plain character or a quoted run.
-/
import Verif.Model.Key

set_option autoImplicit false

namespace Hiera.Spec

/-- A piece of a segment as it is written. -/
inductive Piece
  /-- a character that is neither a quote nor a dot -/
  | plain (c : Char)
  /-- a run of characters other than `q` between two quotes `q` -/
  | quoted (q : Char) (s : Str)
  deriving DecidableEq

abbrev Segment := List Piece

/-- Syntactically possible pieces. -/
def Piece.Ok : Piece → Prop
  | .plain c => c ≠ '\'' ∧ c ≠ '"' ∧ c ≠ '.'
  | .quoted q s => (q = '\'' ∨ q = '"') ∧ q ∉ s

/-- How a piece is written. -/
def Piece.text : Piece → Str
  | .plain c => [c]
  | .quoted q s => q :: s ++ [q]

/-- What a piece denotes. -/
def Piece.content : Piece → Str
  | .plain c => [c]
  | .quoted _ s => s

def segText (seg : Segment) : Str := seg.flatMap Piece.text
def segContent (seg : Segment) : Str := seg.flatMap Piece.content

/-- The text of a key: its segments joined with dots. -/
def keyText : List Segment → Str
  | [] => []
  | [seg] => segText seg
  | seg :: segs => segText seg ++ '.' :: keyText segs

/-- The segment ends with a closing quote. -/
def EndsQuoted (seg : Segment) : Prop := ∃ init q s, seg = init ++ [.quoted q s]

/-- The value of a sequence of decimal digits. -/
def decimalValue (ds : Str) : Nat := ds.foldl (fun a c => 10 * a + (c.toNat - 48)) 0

/-- `s` is an optionally signed decimal number with value `i` that fits in 32 bits. -/
def IsInt32 (s : Str) (i : Int) : Prop :=
  ∃ sign ds, s = sign ++ ds ∧ ds ≠ [] ∧ (∀ c ∈ ds, 48 ≤ c.toNat ∧ c.toNat ≤ 57) ∧
    ((sign = [] ∨ sign = ['+']) ∧ i = (decimalValue ds : Int) ∨ sign = ['-'] ∧ i = -(decimalValue ds : Int)) ∧
    -2147483648 ≤ i ∧ i ≤ 2147483647

/-- What a segment of the key `key` stands for. `first`/`last` tell its position. -/
inductive Reads (key : Str) (first last : Bool) (seg : Segment) : Res Part → Prop
  | verbatim : last = true → EndsQuoted seg → Reads key first last seg (.ok (.name (segContent seg)))
  | index (i : Int) : ¬(last = true ∧ EndsQuoted seg) → IsInt32 (segContent seg) i → first = false →
      Reads key first last seg (.ok (.idx i))
  | firstIndex (i : Int) : ¬(last = true ∧ EndsQuoted seg) → IsInt32 (segContent seg) i → first = true →
      Reads key first last seg (.panic (.firstIndex key))
  | empty : ¬(last = true ∧ EndsQuoted seg) → segContent seg = [] →
      Reads key first last seg (.panic (.emptySegment key))
  | name : ¬(last = true ∧ EndsQuoted seg) → segContent seg ≠ [] → (∀ i, ¬IsInt32 (segContent seg) i) →
      Reads key first last seg (.ok (.name (segContent seg)))

/-- What a sequence of segments stands for: the first segment that cannot be read decides about the error. -/
inductive ReadsKey (key : Str) : Bool → List Segment → Res (List Part) → Prop
  | last {first seg p} : Reads key first true seg (.ok p) → ReadsKey key first [seg] (.ok [p])
  | lastErr {first seg e} : Reads key first true seg (.panic e) → ReadsKey key first [seg] (.panic e)
  | cons {first seg seg' segs p ps} : Reads key first false seg (.ok p) →
      ReadsKey key false (seg' :: segs) (.ok ps) → ReadsKey key first (seg :: seg' :: segs) (.ok (p :: ps))
  | consErr {first seg seg' segs e} : Reads key first false seg (.panic e) →
      ReadsKey key first (seg :: seg' :: segs) (.panic e)
  | consErr' {first seg seg' segs p e} : Reads key first false seg (.ok p) →
      ReadsKey key false (seg' :: segs) (.panic e) → ReadsKey key first (seg :: seg' :: segs) (.panic e)

/-- The part sequences that keys can denote: the root is a string, indexes fit in 32 bits, and a string part other than
the last one is neither empty nor a number. -/
def Denotable : Bool → List Part → Prop
  | _, [] => False
  | _, [.name _] => True
  | first, [.idx i] => first = false ∧ -2147483648 ≤ i ∧ i ≤ 2147483647
  | _, .name s :: ps => s ≠ [] ∧ (∀ i, ¬IsInt32 s i) ∧ Denotable false ps
  | first, .idx i :: ps => first = false ∧ (-2147483648 ≤ i ∧ i ≤ 2147483647) ∧ Denotable false ps

/-- Following one part into a value: an array element by index, or the value of a map entry with the key denoted by the
part. -/
inductive Follow : Part → Value → Value → Prop
  | elem {es : List Value} {n : Nat} {v : Value} : es[n]? = some v → Follow (.idx n) (.arr es) v
  | byName {es : Entries} {s : Str} {v : Value} : (.str s, v) ∈ es → Follow (.name s) (.map es) v
  | byInt {es : Entries} {i : Int} {v : Value} : (.int i, v) ∈ es → Follow (.idx i) (.map es) v

/-- Following a sequence of parts. -/
inductive FollowPath : List Part → Value → Value → Prop
  | nil {v} : FollowPath [] v v
  | cons {p ps v w x} : Follow p v w → FollowPath ps w x → FollowPath (p :: ps) v x

end Hiera.Spec
