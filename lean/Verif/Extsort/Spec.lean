/-
Specification: annotations in order, and annotations that can be those of an index.
-/
import Verif.Extsort.Model
namespace Verif.Extsort

/-- By feature, and by start among those of a feature. -/
def Ordered (l : List Ann) : Prop := l.Pairwise fun a b => a.feature < b.feature ∨ (a.feature = b.feature ∧ a.p ≤ b.p)

/-- Of the same feature, but neither is inside of the other. -/
def Apart (a b : Ann) : Prop := a.feature = b.feature → (a.p < b.p ∧ a.q < b.q) ∨ (b.p < a.p ∧ b.q < a.q)

/-- Every annotation ends no sooner than it starts, and no two of a feature are nested. -/
def Legal (l : List Ann) : Prop := (∀ a ∈ l, a.p ≤ a.q) ∧ l.Pairwise Apart

/-- What `std::sort` guarantees. -/
def Sorts (E : Env) : Prop := ∀ l, (E.sort l).Perm l ∧ Ordered (E.sort l)

/-- There is no file without a name, and the temporary files to come are not the input. -/
structure Fresh (w : World) (input : Name) : Prop where
  noname : w.files (.path []) = none
  older : ∀ k, w.next ≤ k → input ≠ .temp k

end Verif.Extsort
