import Verif.Text.History
/-
  Specification: where the text of transactions is, and how much of it there is.

  Nothing here refers to shards, chunks or readers.  A transaction has its first address and
  its texts; each of its texts takes as many addresses as its tokens do.
-/
namespace Verif.Extent
open Verif.Text

/-- there is a token of one of the transactions at this address -/
def HasText (T : Tokenizer) (ts : List Txn) (a : Int) : Prop :=
  ∃ t ∈ ts, (t.base : Int) ≤ a ∧ a < t.base + t.count T

/-- `p` is the first address with a token, `q` the last -/
structure Bounds (T : Tokenizer) (ts : List Txn) (p q : Int) : Prop where
  first : HasText T ts p
  last : HasText T ts q
  all : ∀ a, HasText T ts a → p ≤ a ∧ a ≤ q

/-- there are `n` addresses with a token -/
def Counts (T : Tokenizer) (ts : List Txn) (n : Int) : Prop :=
  ∃ l : List Int, l.Nodup ∧ (∀ a, a ∈ l ↔ HasText T ts a) ∧ (l.length : Int) = n

/-- what `range` should answer: whether there is text, and where -/
def RangeOk (T : Tokenizer) (ts : List Txn) : Bool × Int × Int → Prop
  | (true, p, q) => Bounds T ts p q
  | (false, p, q) => p = maxfinity ∧ q = maxfinity ∧ ∀ a, ¬ HasText T ts a

/-- every address between two with a token has one -/
def NoGap (T : Tokenizer) (ts : List Txn) : Prop :=
  ∀ a b c, HasText T ts a → HasText T ts c → a ≤ b → b ≤ c → HasText T ts b

end Verif.Extent
