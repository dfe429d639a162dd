import Verif.Terms.Spec
/-
  What statistics with the weights of terms are (the specification of C68).
-/
namespace Verif.Idf
open Verif.Hopper Verif.Terms

/-- a value: a number, or none -/
inductive Val
  | num (r : Rat)
  | nan
deriving DecidableEq

/-- an annotation -/
structure Wide where
  feature : Int
  p : Int
  q : Int
  v : Val
deriving DecidableEq

/-- The features that these statistics are kept under. -/
structure IdfFeatures (Word : Type) where
  tf : Word → Int
  idf : Word → Int
  rsj : Word → Int
  avgl : Int

/-- No two of them are the same, and none is ignored. -/
structure IdfFeatures.Apart {Word : Type} (F : IdfFeatures Word) : Prop where
  tf_inj : ∀ s t, F.tf s = F.tf t → s = t
  idf_inj : ∀ s t, F.idf s = F.idf t → s = t
  rsj_inj : ∀ s t, F.rsj s = F.rsj t → s = t
  tf_idf : ∀ s t, F.tf s ≠ F.idf t
  tf_rsj : ∀ s t, F.tf s ≠ F.rsj t
  idf_rsj : ∀ s t, F.idf s ≠ F.rsj t
  tf_avgl : ∀ s, F.tf s ≠ F.avgl
  idf_avgl : ∀ s, F.idf s ≠ F.avgl
  rsj_avgl : ∀ s, F.rsj s ≠ F.avgl
  tf_pos : ∀ s, 0 < F.tf s
  idf_pos : ∀ s, 0 < F.idf s
  rsj_pos : ∀ s, 0 < F.rsj s
  avgl_pos : 0 < F.avgl

section
variable {Word : Type} [DecidableEq Word]

/-- the terms that a token stands for: its stem; or, with unstemmed terms, itself and its stem, if that is another -/
def termsOf (stem : Word → Word × Bool) (unstemmed : Bool) (t : Word) : List Word :=
  if unstemmed then t :: (if (stem t).2 then [(stem t).1] else []) else [(stem t).1]

/-- the average length of documents -/
def average (D : List Ann) : Rat := ((D.map fun d => d.q - d.p + 1).sum : Int) / ((D.length : Int) : Rat)

/-- the weights of a term that is in `m` of `n` documents -/
def idfOf (log : Rat → Rat) (n m : Nat) : Rat := log ((n : Rat) / m)
def rsjOf (log : Rat → Rat) (n m : Nat) : Rat := log (((n : Rat) - m + 1 / 2) / ((m : Rat) + 1 / 2))

/-- The annotations `notes` are the statistics of the documents `D`, where `terms d` are the terms of one: how often each term is in each
document; the average length; and the weights that are asked for, those of relevance only if they are positive. -/
structure Statistics (F : IdfFeatures Word) (log : Rat → Rat) (terms : Ann → List Word) (idf rsj : Bool) (D : List Ann)
    (notes : List Wide) : Prop where
  tf : ∀ w p q v, (⟨F.tf w, p, q, v⟩ : Wide) ∈ notes ↔
    ∃ d ∈ D, w ∈ terms d ∧ p = d.p ∧ q = d.q ∧ v = .num ((terms d).count w : Nat)
  avgl : ∀ p q v, (⟨F.avgl, p, q, v⟩ : Wide) ∈ notes ↔ p = 0 ∧ q = 0 ∧ v = if D = [] then .nan else .num (average D)
  idf : ∀ w p q v, (⟨F.idf w, p, q, v⟩ : Wide) ∈ notes ↔
    idf = true ∧ 0 < docsWith terms D w ∧ p = 0 ∧ q = 0 ∧ v = .num (idfOf log D.length (docsWith terms D w))
  rsj : ∀ w p q v, (⟨F.rsj w, p, q, v⟩ : Wide) ∈ notes ↔
    rsj = true ∧ 0 < docsWith terms D w ∧ 0 < rsjOf log D.length (docsWith terms D w) ∧ p = 0 ∧ q = 0 ∧
      v = .num (rsjOf log D.length (docsWith terms D w))
  others : ∀ n ∈ notes, n.feature = F.avgl ∨ ∃ w, n.feature = F.tf w ∨ n.feature = F.idf w ∨ n.feature = F.rsj w

/-- An index has the annotations `notes`: `L f` are those of a feature, in order, where `enc` is how values are
held. -/
structure Has (enc : Val → Int) (notes : List Wide) (L : Int → List Ann) : Prop where
  listing : ∀ f, Listing (L f)
  mem : ∀ f a, a ∈ L f ↔ ∃ n ∈ notes, n.feature = f ∧ a = ⟨n.p, n.q, enc n.v⟩

end

end Verif.Idf
