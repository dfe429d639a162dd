import Verif.Hopper.Spec
/-
  What term statistics are (the specification of C46).
-/
namespace Verif.Terms
open Verif.Hopper

/-- an annotation of `feature` at the single address `p` -/
structure Note where
  feature : Int
  p : Int
  v : Int
deriving DecidableEq, Repr

/-- The features that statistics are kept under: of a term's frequencies, of its number of
documents, of the number of documents and of their length. -/
structure Features (Stem : Type) where
  tf : Stem → Int
  df : Stem → Int
  items : Int
  length : Int

/-- No two of them are the same (the tags of the featurizers keep them apart, but for collisions
of the hash), and none is the null feature or below, which annotators ignore. -/
structure Features.Apart {Stem : Type} (F : Features Stem) : Prop where
  tf_inj : ∀ s t, F.tf s = F.tf t → s = t
  df_inj : ∀ s t, F.df s = F.df t → s = t
  tf_df : ∀ s t, F.tf s ≠ F.df t
  tf_items : ∀ s, F.tf s ≠ F.items
  tf_length : ∀ s, F.tf s ≠ F.length
  df_items : ∀ s, F.df s ≠ F.items
  df_length : ∀ s, F.df s ≠ F.length
  items_length : F.items ≠ F.length
  tf_pos : ∀ s, 0 < F.tf s
  df_pos : ∀ s, 0 < F.df s
  items_pos : 0 < F.items
  length_pos : 0 < F.length

/-- the sum of the values under a feature -/
def total (notes : List Note) (f : Int) : Int := ((notes.filter fun n => n.feature == f).map Note.v).sum

/-- how many annotations there are under a feature -/
def amount (notes : List Note) (f : Int) : Nat := (notes.filter fun n => n.feature == f).length

section
variable {Stem : Type} [DecidableEq Stem]

/-- how many of the documents have the term -/
def docsWith (words : Ann → List Stem) (D : List Ann) (s : Stem) : Nat := (D.filter fun d => (words d).contains s).length

/-- `notes` are the counts of the terms of the documents `D`, where `words d` are the terms of
document `d`, in order and with repetitions. -/
structure Counted (F : Features Stem) (words : Ann → List Stem) (D : List Ann) (notes : List Note) : Prop where
  /-- each term of each document is counted at the start of the document, and nothing else is -/
  tf : ∀ (s : Stem) (p v : Int), ⟨F.tf s, p, v⟩ ∈ notes ↔ ∃ d ∈ D, d.p = p ∧ s ∈ words d ∧ v = (words d).count s
  /-- there are as many counts for a term as there are documents that have it -/
  amount : ∀ s, amount notes (F.tf s) = docsWith words D s
  items : total notes F.items = D.length
  length : total notes F.length = (D.map fun d => d.q - d.p + 1).sum
  /-- nothing is said twice, so no annotation replaces another -/
  once : (notes.map fun n => (n.feature, n.p)).Nodup

/-- … and the number of the documents with each term is kept too. -/
structure Recorded (F : Features Stem) (words : Ann → List Stem) (D : List Ann) (notes : List Note) : Prop
    extends Counted F words D notes where
  df : ∀ s, total notes (F.df s) = docsWith words D s

end

end Verif.Terms
