/-
  Model of the threads of apps/trec-example.cc that add and erase files between its phases: several take files from one queue and add them, one takes files from another queue and erases them, at the same time.

  A file that is added is there at once, after the others (its name and its text are one transaction, scribe.cc 266-294); a file is erased at once.  That a failure ends the program is not in the model, nor a file that cannot be read, nor are the annotations for
  judgements and counts of terms.
-/
namespace Verif.Workers

abbrev Text := List Char

/-- a run of tokens in a longer one -/
def occurs (x : List Text) : List Text → Bool
  | [] => x.isEmpty
  | t :: ts => x.isPrefixOf (t :: ts) || occurs x ts

structure State where
  docq : List Text
  held : List Text
  delq : List Text
  target : Option Text
  files : List Text
deriving DecidableEq

/-- trec-example.cc 479-502: of the files whose name has the tokens of this one in a row, the first is erased, if there is one -/
def eraseFile (tokens : Text → List Text) (f : Text) (files : List Text) : List Text := files.eraseP fun g => occurs (tokens f) (tokens g)

inductive Step (tokens : Text → List Text) (threads : Nat) : State → State → Prop
  /-- trec-example.cc 273-282: a thread that has no file takes the first of the queue -/
  | takes (s : State) (f : Text) (rest : List Text) (h : s.docq = f :: rest) (h' : s.held.length < threads) : Step tokens threads s { s with docq := rest, held := s.held ++ [f] }
  /-- trec-example.cc 288-289: and adds it -/
  | adds (s : State) (f : Text) (a b : List Text) (h : s.held = a ++ f :: b) : Step tokens threads s { s with held := a ++ b, files := s.files ++ [f] }
  /-- trec-example.cc 469-478: the thread that erases takes the first of its queue -/
  | targets (s : State) (f : Text) (rest : List Text) (h : s.delq = f :: rest) (h' : s.target = none) : Step tokens threads s { s with delq := rest, target := some f }
  /-- trec-example.cc 479-502 -/
  | erases (s : State) (f : Text) (h : s.target = some f) : Step tokens threads s { s with target := none, files := eraseFile tokens f s.files }

inductive Steps (tokens : Text → List Text) (threads : Nat) : Nat → State → State → Prop
  | refl (s : State) : Steps tokens threads 0 s s
  | tail {n : Nat} {a b c : State} (h : Steps tokens threads n a b) (h' : Step tokens threads b c) : Steps tokens threads (n + 1) a c

/-- trec-example.cc 533-539, 554-561 and so on: the queues of a phase when its threads start -/
def start (add del files : List Text) : State := ⟨add, [], del, none, files⟩

/-- trec-example.cc 540-541, 562-564: all threads have been joined, which end when their queue is empty and they hold no file (281-282, 477-478) -/
def State.done (s : State) : Prop := s.docq = [] ∧ s.held = [] ∧ s.delq = [] ∧ s.target = none

/-- one phase after the other, each with the files to add and to erase -/
inductive Phases (tokens : Text → List Text) (threads : Nat) : List (List Text × List Text) → List Text → List Text → Prop
  | nil (files : List Text) : Phases tokens threads [] files files
  | cons {add del : List Text} {rest : List (List Text × List Text)} {files last : List Text} {s : State} {n : Nat} (h : Steps tokens threads n (start add del files) s) (hd : s.done)
      (h' : Phases tokens threads rest s.files last) : Phases tokens threads ((add, del) :: rest) files last

/-! ### specification -/

/-- no other name of the list has the tokens of this one in a row -/
def Apart (tokens : Text → List Text) (del files : List Text) : Prop := ∀ f ∈ del, ∀ g ∈ files, occurs (tokens f) (tokens g) = true → g = f

end Verif.Workers
