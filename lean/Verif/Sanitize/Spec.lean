/-
The words used to say what opening a burrow does with the files of static shards (C53).
-/
import Verif.Sanitize.Model
namespace Verif.Sanitize
open Verif.Txn

/-- the ranges follow one another without a gap, from `lo` to `hi` -/
def Covers : Nat → Nat → List FName → Prop
  | _, _, [] => False
  | lo, hi, [a] => a.lo = lo ∧ a.hi = hi
  | lo, hi, a :: b :: l => a.lo = lo ∧ Covers (a.hi + 1) hi (b :: l)

/-- the names have ranges, of 64-bit numbers, and no name occurs twice -/
structure Named (dir : List File) : Prop where
  once : dir.Nodup
  range : ∀ f ∈ dir, f.lo ≤ f.hi
  small : ∀ f ∈ dir, f.hi ≤ 9223372036854775807

end Verif.Sanitize
