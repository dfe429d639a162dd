import Verif.Tsv.Model
/-
  What lines, fields and words of a text are, and what is annotated of a table.
-/
namespace Verif.Tsv
open Verif.Text Verif.Hopper

/-- no end of a line in it -/
def Unbroken (l : Text) : Prop := 0x0A ∉ l ∧ 0x0D ∉ l

/-- the lines of a text: each ends in a newline, a return, or both; the last may have no end -/
inductive Lines : Text → List Text → Prop
  | none : Lines [] []
  | open_ {l} : Unbroken l → l ≠ [] → Lines l [l]
  | newline {l s ls} : Unbroken l → Lines s ls → Lines (l ++ 0x0A :: s) (l :: ls)
  | both {l s ls} : Unbroken l → Lines s ls → Lines (l ++ 0x0D :: 0x0A :: s) (l :: ls)
  | return_ {l s ls} : Unbroken l → s.head? ≠ some 0x0A → Lines s ls → Lines (l ++ 0x0D :: s) (l :: ls)

/-- the fields of a line: what is before the first separator, and the fields of what is after it -/
inductive Fields (sep : Text) : Text → List Text → Prop
  | last {s} : ¬ sep <:+: s → Fields sep s [s]
  | more {f s fs} : (∀ k < f.length, ¬ sep <+: (f ++ sep ++ s).drop k) → Fields sep s fs → Fields sep (f ++ sep ++ s) (f :: fs)

/-- the words of a line: what is between blanks -/
inductive Words : Text → List Text → Prop
  | none {s} : (∀ c ∈ s, isSpace c = true) → Words s []
  | more {g w s ws} : (∀ c ∈ g, isSpace c = true) → w ≠ [] → (∀ c ∈ w, isSpace c = false) →
      (∀ c, s.head? = some c → isSpace c = true) → Words s ws → Words (g ++ w ++ s) (w :: ws)

/-- what is appended for the fields of a line: all but the last are followed by a separator -/
def texts (wsep : Text) (fields : List Text) : List Text := fields.dropLast.map (· ++ wsep) ++ fields.getLast?.toList

/-- number of addresses of some texts -/
def width (T : Tokenizer) (ts : List Text) : Nat := (ts.map T.addresses).sum

/-- every field that has tokens, from the address `b` and the number `j` on -/
def fieldNotes (T : Tokenizer) : Nat → Nat → List Text → List Note
  | _, _, [] => []
  | b, j, s :: ts =>
    (if 0 < T.addresses s then [(.field j, (b : Int), (b : Int) + T.addresses s - 1)] else []) ++
      fieldNotes T (b + T.addresses s) (j + 1) ts

/-- one annotation for `w` addresses from `b` on, if there are any -/
def whole (f : Feature) (b w : Nat) : List Note := if 0 < w then [(f, (b : Int), (b : Int) + w - 1)] else []

/-- the annotations of the rows of a table, of which the texts are given: those of the fields, and one for the row, as a
header if it is the first -/
def rows (T : Tokenizer) : Bool → Nat → List (List Text) → List Note
  | _, _, [] => []
  | first, b, ts :: l =>
    fieldNotes T b 0 ts ++ whole (if first then .header else .data) b (width T ts) ++ rows T false (b + width T ts) l

/-- The rows end as they should: a row with tokens has one in its last field, and after a row with fields but without
tokens there comes one with tokens. -/
def Tidy (T : Tokenizer) : List (List Text) → Prop
  | [] => True
  | ts :: l => (ts = [] ∨ (∃ s, ts.getLast? = some s ∧ 0 < T.addresses s) ∨ (width T ts = 0 ∧ 0 < width T l.flatten)) ∧ Tidy T l

end Verif.Tsv
