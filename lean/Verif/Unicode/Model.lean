import Verif.Unicode.Data
import Verif.Text.Words
/-
  Model of how the tables of the UTF-8 tokenizer are written (`utf8_tables`) and set up
  (`Utf8Tokenizer::Utf8Tokenizer`): src/utf8_tokenizer.cc.

  The constructor holds a lock throughout (316, 356) and sets the tables up once, so it is modelled as one step.
-/
namespace Verif.Unicode
open Verif.Text

/-- `UTF8_MAX` (`src/utf8_tokenizer.cc:15`) -/
def utf8Max : Nat := 2097152

/-- `src/utf8_tokenizer.cc:318-324`: `folds`, and `offset[src] = folds.size()`; of several entries for a code point the last
counts -/
def foldTables : List (Nat × Nat) → Text → List (Nat × Nat) → Text × List (Nat × Nat)
  | [], folds, offset => (folds, offset)
  | (src, dst) :: l, folds, offset => foldTables l (folds ++ encode dst) ((src, folds.length) :: offset)

/-- `src/utf8_tokenizer.cc:325-328`: `folds_`, ended by a zero -/
def foldBytes (folds : List (Nat × Nat)) : Text := (foldTables folds [] []).1 ++ [0]

/-- `offset[codepoint]` of a `std::map`: 0 if there is no entry (`src/utf8_tokenizer.cc:342`) -/
def offsetOf (folds : List (Nat × Nat)) (c : Nat) : Nat := ((foldTables folds [] []).2.lookup c).getD 0

/-- `src/utf8_tokenizer.cc:421-423`, `459-461`, `495-497`: what is taken of `folds_` from a position on: a byte and those after it
that continue a sequence, `(*action & 0xC0) == 0x80` -/
def readFold : Text → Text
  | [] => []
  | b :: s => b :: s.takeWhile fun b => b &&& 0xC0 == 0x80

/-- `src/utf8_tokenizer.cc:331-354`: the action of the `c`-th code point; `none` is an entry that is not written -/
def actionAt : List (Nat × Nat) → Nat → Option Nat
  | [], _ => none
  | (n, a) :: l, c => if c < n then some a else actionAt l (c - n)

/-- `src/utf8_tokenizer.cc:334-351`: what is stored for an action; `none` is the `default`, which stores nothing -/
def store (folds : List (Nat × Nat)) (c : Nat) : Nat → Option Action
  | 0 => some .non
  | 1 => some .tok
  | 2 => some (.fold (readFold ((foldBytes folds).drop (offsetOf folds c))))
  | 3 => some .uni
  | 4 => some .uni
  | _ => none

/-- `src/utf8_tokenizer.cc:315-357` the constructor: the entry of a code point in `actions_`.  `none` if it is not written. -/
def entry (actions folds : List (Nat × Nat)) (c : Nat) : Option Action := (actionAt actions c).bind (store folds c)

/-- the number of entries that the constructor writes; those after `UTF8_MAX` would be beyond the array (329) -/
def written (actions : List (Nat × Nat)) : Nat := (actions.map (·.1)).sum

/-- the table that tokenizers use: with the tables of src/unicode.h -/
def table (c : Nat) : Action := (entry compressedActions compressedFolds c).getD .non

/-- `src/utf8_tokenizer.cc:115-128` `write_compressed_actions`: from `i` on, the number of equal actions and the action.  `j`
is the length of the run so far. -/
def runs : Nat → Nat → List Nat → List (Nat × Nat)
  | a, j, [] => [(j, a)]
  | a, j, b :: l => if b = a then runs a (j + 1) l else (j, a) :: runs b 1 l

/-- `src/utf8_tokenizer.cc:105-129` `write_compressed_actions`, what is between the braces; of an empty table it would read beyond
the end -/
def compress : List Nat → Option (List (Nat × Nat))
  | [] => none
  | a :: l => some (runs a 1 l)

end Verif.Unicode
