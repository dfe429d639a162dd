import Verif.TxtIO.Model

/-!
# The files of a static warren through a transaction

Model of what a transaction on a static ("simple") warren does to its directory: `src/simple_warren.cc`,
`src/simple_appender.cc`, `src/simple_annotator.cc`. What is written to the files is modelled elsewhere
(`Verif.TxtIO` for the text, `Verif.SimpleText` for the block map, `Verif.Static` for the index); here the
new contents of the block map and of the index are any bytes, and what matters is in which order files
appear, replace others and disappear.

Simplifications:
* temporary files are left out: nothing ever reads those of another process;
* `rename`, `link` and `remove` happen or do not happen; a `rename` of a file that is not there does
  nothing, as the code ignores the error;
* the steps of one process reach the disk in order, but for what is written to an open stream, of which
  any part may be lost until it is flushed or closed.
-/

namespace Verif.Crash
open TxtIO (Bytes Disk)

/-- The files of a static warren: those of the text (`TxtIO.Disk`), the block map `txt` with `txt.new` and
`txt.lock`, and the index `idx`, `pst` with `idx.new`, `pst.new` and `idx.lock`
(`src/simple.h` 18-24, `src/simple_appender.cc` 93-101, `src/simple_annotator.cc` 92-96). -/
structure Dir where
  store : Disk := {}
  txt : Bytes := []
  txtNew : Option Bytes := none
  txtLock : Bool := false
  idx : Bytes := []
  pst : Bytes := []
  idxNew : Option Bytes := none
  pstNew : Option Bytes := none
  idxLock : Bool := false
deriving DecidableEq, Repr

/-- The changes made to the directory. -/
inductive Op where
  /-- a change of the files of the text -/
  | text (o : TxtIO.Op)
  /-- `link(txt, txt.lock)` -/
  | lockTxt
  /-- `remove(txt.lock)` -/
  | unlockTxt
  /-- what is in `txt.new` so far -/
  | newTxt (b : Bytes)
  /-- `rename(txt.new, txt)` -/
  | publishTxt
  /-- `remove(txt.new)` -/
  | dropTxt
  /-- `link(idx, idx.lock)` -/
  | lockIdx
  /-- `remove(idx.lock)` -/
  | unlockIdx
  /-- `rename(temporary, idx.new)` -/
  | stageIdx (b : Bytes)
  /-- `rename(temporary, pst.new)` -/
  | stagePst (b : Bytes)
  /-- `rename(idx.new, idx)` -/
  | publishIdx
  /-- `rename(pst.new, pst)` -/
  | publishPst
  /-- `remove(idx.new)` -/
  | dropIdx
  /-- `remove(pst.new)` -/
  | dropPst
deriving DecidableEq, Repr

/-- What a change does. -/
def Op.run : Op → Dir → Dir
  | .text o, d => { d with store := o.run d.store }
  | .lockTxt, d => { d with txtLock := true }
  | .unlockTxt, d => { d with txtLock := false }
  | .newTxt b, d => { d with txtNew := some b }
  | .publishTxt, d => { d with txt := d.txtNew.getD d.txt, txtNew := none }
  | .dropTxt, d => { d with txtNew := none }
  | .lockIdx, d => { d with idxLock := true }
  | .unlockIdx, d => { d with idxLock := false }
  | .stageIdx b, d => { d with idxNew := some b }
  | .stagePst b, d => { d with pstNew := some b }
  | .publishIdx, d => { d with idx := d.idxNew.getD d.idx, idxNew := none }
  | .publishPst, d => { d with pst := d.pstNew.getD d.pst, pstNew := none }
  | .dropIdx, d => { d with idxNew := none }
  | .dropPst, d => { d with pstNew := none }

/-- Changes in order. -/
def runAll (ops : List Op) (d : Dir) : Dir := ops.foldl (fun d o => o.run d) d

/-- Changes come in stages: all of a stage is on disk before the next begins. -/
def runStages (stages : List (List Op)) (d : Dir) : Dir := stages.foldl (fun d s => runAll s d) d

/-- Beginning a transaction (`SimpleWarren::transaction_`, `src/simple_warren.cc` 151-159): the appender
(`src/simple_appender.cc` 176-242) takes its lock, begins one on the text (`src/simple_txt_io.cc` 417-468:
lock, then `.limits`), which leaves the files of the text as `base`, and creates `txt.new`, of which
`spilled` is on disk; then the annotator takes its lock (`src/simple_annotator.cc` 110-130). -/
def opening (base : Disk) (spilled : Bytes) : List (List Op) :=
  [[.lockTxt], [.text .lock], base.limits.toList.map fun l => .text (.limit l.1 l.2), [.newTxt spilled], [.lockIdx]]

/-- Appending and flushing text, `log` being the changes of its files (`src/simple_appender.cc` 105-174 and
311-320, the latter the appender's part of `SimpleWarren::ready_`, `src/simple_warren.cc` 161-163). What is
added to `txt.new` stays in `spilled`. -/
def working (log : List TxtIO.Op) : List (List Op) := [log.map .text]

/-- The annotator's part of `SimpleWarren::ready_`: it merges into temporary files and gives them their
names (`src/simple_annotator.cc` 320-335). -/
def staging (idx pst : Bytes) : List (List Op) := [[.stageIdx idx], [.stagePst pst]]

/-- `SimpleWarren::commit_` (`src/simple_warren.cc` 165-168): the appender (`src/simple_appender.cc` 322-335)
commits the text (`src/simple_txt_io.cc` 475, 34-42), closes `txt.new`, only now wholly written, and
renames it; then the annotator (`src/simple_annotator.cc` 342-353). -/
def committing (txt : Bytes) : List (List Op) :=
  [[.text .unlimit], [.text .unlock], [.newTxt txt], [.publishTxt], [.unlockTxt],
   [.publishIdx], [.publishPst], [.unlockIdx]]

/-- `SimpleWarren::abort_` (`src/simple_warren.cc` 170-173): the appender (`src/simple_appender.cc` 337-350)
undoes the changes of the text, `log` being what undoes them (`src/simple_txt_io.cc` 477-499), closes `txt.new` and removes it; then the annotator (`src/simple_annotator.cc` 355-370). -/
def aborting (log : List TxtIO.Op) (txt : Bytes) : List (List Op) :=
  [log.map .text, [.text .unlimit], [.text .unlock], [.newTxt txt], [.dropTxt], [.unlockTxt],
   [.dropPst], [.dropIdx], [.unlockIdx]]

/-- `SimpleAppender::recover` (`src/simple_appender.cc` 74-103). -/
def recoverText (z : TxtIO.Codec) (commit : Bool) (d : Disk) : List (List Op) :=
  [(if commit then [] else TxtIO.restore false z d).map .text, [.text .unlimit], [.text .unlock],
   [if commit then .publishTxt else .dropTxt], [.unlockTxt]]

/-- `SimpleAnnotator::recover` (`src/simple_annotator.cc` 84-106). -/
def recoverIdx (commit : Bool) : List (List Op) :=
  (if commit then [[.publishIdx], [.publishPst]] else [[.dropPst], [.dropIdx]]) ++ [[.unlockIdx]]

/-- Both recoveries, the appender's first. -/
def recover (z : TxtIO.Codec) (commit : Bool) (d : Dir) : Dir :=
  runStages (recoverIdx commit) (runStages (recoverText z commit d.store) d)

/-- Whether a transaction can begin on a warren opened on the directory: none of the locks may be there
(`src/simple_appender.cc` 184, `src/simple_annotator.cc` 122, `src/simple_txt_io.cc` 417-426, where `.limits`
makes the text read only). `SimpleWarren::make` does not recover (`src/simple_warren.cc` 19-112). -/
def canBegin (d : Dir) : Bool := !d.txtLock && !d.store.lock && d.store.limits.isNone && !d.idxLock

end Verif.Crash
