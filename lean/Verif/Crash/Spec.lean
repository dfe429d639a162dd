import Verif.Crash.Model
import Verif.TxtIO.Spec

/-!
# Crashes of a static warren
-/

namespace Verif.Crash
open TxtIO (Bytes Disk)

/-- What one change may leave behind when it is interrupted: changes of the text as in `TxtIO.Torn`; of
`txt.new` any beginning may be on disk; other changes happen or do not. -/
inductive Torn : Op → Dir → Dir → Prop
  | whole (o d) : Torn o d (o.run d)
  | text {o d s} : TxtIO.Torn o d.store s → Torn (.text o) d { d with store := s }
  | newTxt (b k d) : Torn (.newTxt b) d { d with txtNew := some (b.take k) }

/-- The directory after some changes of a stage, each possibly interrupted. -/
inductive Part : List Op → Dir → Dir → Prop
  | nil (d) : Part [] d d
  | cons {o os d d' d''} : Torn o d d' → Part os d' d'' → Part (o :: os) d d''
  | skip {o os d d'} : Part os d d' → Part (o :: os) d d'

/-- The directory after a crash in one of the stages, or after all of them. -/
inductive Cut : List (List Op) → Dir → Dir → Prop
  | done (d) : Cut [] d d
  | inside {s ss d d'} : Part s d d' → Cut (s :: ss) d d'
  | next {s ss d d'} : Cut ss (runAll s d) d' → Cut (s :: ss) d d'

/-- Recoveries, of the text and of the index, that were themselves interrupted, any number of them. -/
inductive Struggle (z : TxtIO.Codec) (commit : Bool) : Dir → Dir → Prop
  | none (d) : Struggle z commit d d
  | text {d d' d''} : Cut (recoverText z commit d.store) d d' → Struggle z commit d' d'' → Struggle z commit d d''
  | idx {d d' d''} : Cut (recoverIdx commit) d d' → Struggle z commit d' d'' → Struggle z commit d d''

/-- What a warren consists of: the text, and the bytes of the block map and of the index. -/
structure Contents where
  text : Bytes
  txt : Bytes
  idx : Bytes
  pst : Bytes

/-- Calls the appender makes on the text in a transaction. -/
def Work : TxtIO.Call → Prop
  | .append _ | .read .. | .size | .flush | .ready => True
  | _ => False

/-- The text of a warren: after the calls `pre` on an empty text it is `s1`, in no transaction and all of
it flushed; after beginning a transaction and the calls `work` in it, it is `s`. -/
structure Session (n : Nat) (z : TxtIO.Codec) (pre : List TxtIO.Call) (junk : Bytes) (work : List TxtIO.Call)
    (s1 s : TxtIO.Store) : Prop where
  careful : TxtIO.Careful z {} pre
  free : (TxtIO.Plain.run {} pre).1.saved = none
  flushed : (TxtIO.Plain.run {} pre).1.dirty = false
  only : ∀ c ∈ work, Work c
  first : ∃ s0 as, TxtIO.make n z {} = some s0 ∧ TxtIO.run false n z s0 pre = some (s1, as)
  began : ∃ as, TxtIO.run false n z s1 (.transaction junk :: work) = some (s, as)

/-- The string before the transaction. -/
def textBefore (pre : List TxtIO.Call) : Bytes := (TxtIO.Plain.run {} pre).1.text

/-- The string in the transaction, after the calls `work`. -/
def textAfter (pre : List TxtIO.Call) (junk : Bytes) (work : List TxtIO.Call) : TxtIO.Plain :=
  ((TxtIO.Plain.run {} pre).1.run (.transaction junk :: work)).1

end Verif.Crash
