import Verif.Terms.Spec
import Verif.Rank.Spec
/-
  What statistics by fields are (the specification of C67).
-/
namespace Verif.Fields
open Verif.Hopper Verif.Terms Verif.Rank

/-- The features of statistics by fields: those of all statistics; of a term's frequencies in field `i`; and of the lengths of
documents. -/
structure FieldFeatures (Stem : Type) extends Features Stem where
  field : Nat → Stem → Int
  len : Int

/-- No two of them are the same, and none is ignored.  (That of the lengths is that of the frequencies of the term `#`, which
tokenizers do not give.) -/
structure FieldFeatures.Apart {Stem : Type} (F : FieldFeatures Stem) : Prop where
  base : F.toFeatures.Apart
  field_inj : ∀ i j s t, F.field i s = F.field j t → i = j ∧ s = t
  field_tf : ∀ i s t, F.field i s ≠ F.tf t
  field_df : ∀ i s t, F.field i s ≠ F.df t
  field_items : ∀ i s, F.field i s ≠ F.items
  field_length : ∀ i s, F.field i s ≠ F.length
  field_len : ∀ i s, F.field i s ≠ F.len
  len_tf : ∀ s, F.len ≠ F.tf s
  len_df : ∀ s, F.len ≠ F.df s
  len_items : F.len ≠ F.items
  len_length : F.len ≠ F.length
  field_pos : ∀ i s, 0 < F.field i s
  len_pos : 0 < F.len

section
variable {Stem : Type} [DecidableEq Stem]

/-- The terms of field `i` of a document: those of the solutions of the field's query that lie in the document (`fields` are the
solutions of the queries of the fields), or of some of these that `pick` picks. -/
def fieldWords (words : Ann → List Stem) (fields : List (List Ann)) (pick : List Ann → List Ann) (i : Nat) (d : Ann) : List Stem :=
  (pick (within (fields.getD i []) d)).flatMap words

/-- the terms of all its fields -/
def allWords (words : Ann → List Stem) (fields : List (List Ann)) (pick : List Ann → List Ann) (d : Ann) : List Stem :=
  (List.range fields.length).flatMap fun i => fieldWords words fields pick i d

/-- the length of all its fields -/
def fieldLength (fields : List (List Ann)) (pick : List Ann → List Ann) (d : Ann) : Int :=
  (fields.map fun L => ((pick (within L d)).map fun a => a.q - a.p + 1).sum).sum

/-- `notes` are the counts of the terms of documents `D` in `n` fields: `part i d` are the terms of field `i` of document `d`,
`whole d` those of all, and `size d` is its length. -/
structure FieldCounted (F : FieldFeatures Stem) (n : Nat) (part : Nat → Ann → List Stem) (whole : Ann → List Stem) (size : Ann → Int)
    (D : List Ann) (notes : List Note) : Prop where
  /-- how often a term is in a field of a document -/
  field : ∀ i, i < n → ∀ (s : Stem) (p v : Int), ⟨F.field i s, p, v⟩ ∈ notes ↔
    ∃ d ∈ D, d.p = p ∧ s ∈ part i d ∧ v = (part i d).count s
  /-- there are no other fields -/
  others : ∀ i, n ≤ i → ∀ (s : Stem) (p v : Int), ⟨F.field i s, p, v⟩ ∉ notes
  /-- how often it is in the fields of a document -/
  tf : ∀ (s : Stem) (p v : Int), ⟨F.tf s, p, v⟩ ∈ notes ↔ ∃ d ∈ D, d.p = p ∧ s ∈ whole d ∧ v = (whole d).count s
  /-- the lengths of the documents -/
  len : ∀ (p v : Int), ⟨F.len, p, v⟩ ∈ notes ↔ ∃ d ∈ D, d.p = p ∧ v = size d
  /-- how many documents have the term -/
  df : ∀ (s : Stem) (p v : Int), ⟨F.df s, p, v⟩ ∈ notes ↔ p = 0 ∧ v = docsWith whole D s ∧ 0 < v
  items : total notes F.items = D.length
  length : total notes F.length = (D.map size).sum
  /-- nothing is said twice -/
  once : (notes.map fun n => (n.feature, n.p)).Nodup

end

end Verif.Fields
