import Verif.Stream.Model
import Verif.TxtIO.Spec

/-!
# What reading a stream should give
-/

namespace Verif.Stream
open Verif.TxtIO

/-- Pieces of the given lengths cut off the front of a text, one after the other; shorter ones once the
text ends. -/
def pieces : List Nat → Bytes → List Bytes
  | [], _ => []
  | a :: as, t => t.take a :: pieces as (t.drop a)

/-- What reads of a text give, when the first of them continues at `pos`. -/
def answers (t : Bytes) : Nat → List Read → List Bytes
  | _, [] => []
  | pos, .next a :: cs => (t.drop pos).take a :: answers t (pos + ((t.drop pos).take a).length) cs
  | _, .at p a :: cs => (t.drop p).take a :: answers t (p + ((t.drop p).take a).length) cs

/-- What is asked of a compressor and of the buffers: any string of at most `cap` bytes is given back,
and its compressed form fits into `space`. -/
structure Fits (z : Codec) (cap space : Nat) : Prop where
  restores : z.Restores cap
  small : ∀ x, x.length ≤ cap → (z.crush x).length ≤ space

end Verif.Stream
