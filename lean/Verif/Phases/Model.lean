/-
  Model of apps/trec-example.cc: the judgements that it loads, and how its main thread and the threads of its queries wait for each other when the collection changes from one phase to the next.

  Levels are exact numbers; a level that is not a number or not finite is `none`.  The threads that add and erase documents have ended when the flags are set (they are joined: 540-541, 562-564, 585-587, 603), so that a phase is a number here.  That the flag `stop` is read and written without a lock is not in the model.
-/
namespace Verif.Phases

abbrev Text := List Char

/-! ### judgements -/

/-- a line of a file of judgements: its first, third and fourth field, the last as a number that is not negative (trec-example.cc 31-37) -/
structure Row where
  topic : Text
  docno : Text
  level : Rat
deriving DecidableEq

abbrev Qrels := Text → Text → Option (Option Rat)

/-- trec-example.cc 38-41: judgements that are not positive are left out -/
def record (r : Row) (m : Qrels) : Qrels :=
  if r.level > 0 then fun t d => if t = r.topic ∧ d = r.docno then some (some r.level) else m t d else m

/-- trec-example.cc 30-42 -/
def recordAll (rows : List Row) (m : Qrels) : Qrels := rows.foldl (fun m r => record r m) m

/-- trec-example.cc 28, 39 -/
def maxLevel (rows : List Row) : Rat := rows.foldl (fun m r => if r.level > 0 then (if m < r.level then r.level else m) else m) 0

/-- trec-example.cc 45: a division, which is not a finite number for 0 -/
def scale (m : Rat) (l : Option Rat) : Option Rat := l.bind fun x => if m = 0 then none else some (x / m)

/-- trec-example.cc 18-47: all judgements in the map are divided by the largest level of this file -/
def load (rows : List Row) (m : Qrels) : Qrels := fun t d => (recordAll rows m t d).map (scale (maxLevel rows))

/-- trec-example.cc 49-60: one file after the other, into the same map -/
def loadFiles (files : List (List Row)) : Qrels := files.foldl (fun m rows => load rows m) fun _ _ => none

/-! ### phases -/

/-- what a thread printed: which it is, the phase in which its ranking began, and the phase in which it was printed -/
structure Report where
  who : Nat
  began : Nat
  printed : Nat
deriving DecidableEq

/-- the flags, the semaphore, how many phases have been completed by their documents, whether the main thread waits, the phase in which each ranking began, and what was printed -/
structure State where
  sync : List Bool
  sem : Nat
  phase : Nat
  waiting : Bool
  began : List Nat
  log : List Report
deriving DecidableEq

/-- trec-example.cc 505-510: `n` queries -/
def init (n : Nat) : State := ⟨List.replicate n false, 0, 0, false, List.replicate n 0, []⟩

inductive Step : State → State → Prop
  /-- trec-example.cc 404-408: a thread begins a ranking, of the collection as it is -/
  | begins (s : State) (i : Nat) (h : i < s.began.length) : Step s { s with began := s.began.set i s.phase }
  /-- trec-example.cc 437-450: it prints, and the last one whose flag was set releases the semaphore -/
  | prints (s : State) (i : Nat) (h : i < s.began.length) :
    Step s { s with
      sync := s.sync.set i false
      sem := if s.sync[i]? = some true ∧ (s.sync.set i false).all (! ·) then s.sem + 1 else s.sem
      log := s.log ++ [⟨i, s.began[i], s.phase⟩] }
  /-- trec-example.cc 542-545 and so on: the documents of a phase are done, and all flags are set -/
  | sets (s : State) (h : s.waiting = false) : Step s { s with sync := s.sync.map fun _ => true, phase := s.phase + 1, waiting := true }
  /-- trec-example.cc 546 and so on: `acquire` -/
  | acquires (s : State) (h : s.waiting = true) (h' : 0 < s.sem) : Step s { s with sem := s.sem - 1, waiting := false }

inductive Steps : State → State → Prop
  | refl (s : State) : Steps s s
  | tail {a b c : State} (h : Steps a b) (h' : Step b c) : Steps a c

/-! ### specification -/

/-- the last positive level that a file gives a document for a topic -/
def lastPositive (rows : List Row) (t d : Text) : Option Rat := ((rows.filter fun r => r.topic = t ∧ r.docno = d ∧ r.level > 0).getLast?).map (·.level)

end Verif.Phases
