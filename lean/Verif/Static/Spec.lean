import Verif.Static.Model
import Verif.Gcl.Proof
import Verif.Store.PostingProof

/-!
# What a static warren's index should answer

Stated on the history of transactions alone.
-/

namespace Verif.Static
open Verif.Hopper Verif.Store

/-- An interval of addresses; others are ignored. -/
def Kept (a : Ann) : Prop := 0 ≤ a.p ∧ a.p ≤ a.q

instance (a : Ann) : Decidable (Kept a) := by unfold Kept; infer_instance

/-- The annotation was given in a committed transaction, and is an interval of addresses. -/
def Given (ts : List Txn) (f : Int) (a : Ann) : Prop :=
  ∃ t ∈ ts, t.commit = true ∧ (f, a) ∈ t.anns ∧ Kept a

/-- … and its interval was not given again in a later committed transaction. -/
def Latest (ts : List Txn) (f : Int) (a : Ann) : Prop :=
  ∃ before t after, ts = before ++ t :: after ∧ Given [t] f a ∧
    ¬ ∃ b, Given after f b ∧ b.p = a.p ∧ b.q = a.q

/-- What queries for a feature should see: of the intervals committed those that contain no other, each
with the value committed last. -/
def Visible (ts : List Txn) (f : Int) (a : Ann) : Prop :=
  Latest ts f a ∧ ∀ b, Given ts f b → inside b a → b.p = a.p ∧ b.q = a.q

/-- Annotations that the theorems speak about: features and values are 64 bits, the values not `-0.0`,
intervals end before the end of time, and of the annotations of one feature none contains another. -/
structure Fair (anns : List (Int × Ann)) : Prop where
  feature : ∀ x ∈ anns, In64 x.1
  value : ∀ x ∈ anns, minfinity < x.2.v ∧ x.2.v ≤ maxfinity
  stop : ∀ x ∈ anns, x.2.q < maxfinity
  flat : anns.Pairwise fun x y => x.1 = y.1 → Kept x.2 → Kept y.2 →
    ¬ inside x.2 y.2 ∧ ¬ inside y.2 x.2

/-- A pair of compressors that works for lists of up to `N` numbers: `pc` on non-decreasing lists of
addresses, `fc` on any. -/
structure Codecs (N : Nat) (pc fc : Codec) : Prop where
  small : N ≤ 9223372036854775807
  pc : ∀ l : List Int, l.length ≤ N → (∀ a ∈ l, 0 ≤ a ∧ a ≤ 9223372036854775807) → l.Pairwise (· ≤ ·) →
    Restores pc l
  fc : ∀ l : List Int, l.length ≤ N → (∀ a ∈ l, In64 a) → Restores fc l

/-- How many annotations were committed. -/
def committed (ts : List Txn) : Nat := (ts.map fun t => if t.commit then t.anns.length else 0).sum

/-- A token as an annotation. -/
def point (t : Int × Int) : Int × Ann := (t.1, ⟨t.2, t.2, 0⟩)

/-- What a builder was given, as one transaction: the tokens of the texts and the annotations, without
those of the null feature. -/
def built (texts : List (List (Int × Int))) (anns : List (Int × Ann)) : Txn :=
  { anns := (texts.flatten.map point ++ anns).filter fun x => x.1 != nullFeature, commit := true }

/-- What the builder asks for: addresses increase from text to text, the annotations of a feature are
given in increasing order, after its tokens if it has any; and there is a token if there is an
annotation. -/
structure FairBuild (texts : List (List (Int × Int))) (anns : List (Int × Ann)) : Prop where
  feature : ∀ x ∈ (built texts anns).anns, In64 x.1
  value : ∀ x ∈ anns, minfinity < x.2.v ∧ x.2.v ≤ maxfinity
  stop : ∀ x ∈ (built texts anns).anns, x.2.q < maxfinity
  tokens : ∀ t ∈ texts, ∀ x ∈ t, 0 ≤ x.2
  rising : texts.Pairwise fun t u => ∀ x ∈ t, ∀ y ∈ u, x.2 < y.2
  growing : anns.Pairwise fun x y => x.1 = y.1 → Kept x.2 → Kept y.2 → x.2.p < y.2.p ∧ x.2.q < y.2.q
  mixed : ∀ t ∈ texts, ∀ x ∈ t, ∀ y ∈ anns, x.1 = y.1 → Kept y.2 → x.2 < y.2.p
  some : (∃ t ∈ texts, ∃ x ∈ t, x.1 ≠ nullFeature) ∨ ∀ x ∈ anns, x.1 ≠ nullFeature → ¬ Kept x.2

end Verif.Static
