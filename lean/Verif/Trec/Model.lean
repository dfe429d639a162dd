import Verif.Trec.Spec
import Verif.Rank.Model
/-
  Model of `trec` (src/ranker.cc:365-473).  Each critical section is one step of a worker, and so is what is between them.
  `Stats::make` and `Ranker::from_pipeline` may fail with any error; what they do otherwise is C63.  The times are left out.
-/
namespace Verif.Trec
open Verif.Hopper
open Verif.Rank (allowedThreads)

/-- what the workers have to do: the topics and their queries; what becomes of the copy of the warren of a worker (`none`: all is well,
`some e`: the error), and of its statistics, its pipeline and its hopper for identifiers; how the pipeline of a worker answers a query -/
structure Job (T Q A E : Type) where
  work : List (T × Q)
  threads : Nat
  clones : Nat → Option E → Prop
  prepares : Nat → Option E → Prop
  answer : Nat → Q → A

/-- where a worker is in `solver` -/
inductive At (E : Type)
  | begin
  | cloning
  | cloned
  | failing (e : E)
  | at (j : Nat)
  | solving (j : Nat)
  | done

/-- the variables the workers share, and where they are -/
structure State (T A E : Type) where
  stop : Bool
  error : Option E
  results : Results T A
  workers : Nat → At E

def set {E : Type} (w : Nat → At E) (i : Nat) (x : At E) : Nat → At E := fun k => if k = i then x else w k

/-- `(*results)[topic] = ...` -/
def store {T A : Type} [DecidableEq T] (r : Results T A) (t : T) (a : A) : Results T A := fun u => if u = t then some a else r u

section
variable {T Q A E : Type} [DecidableEq T]

/-- `clone_lock` is free -/
def Free (J : Job T Q A E) (s : State T A E) : Prop := ∀ k, k < J.threads → (match s.workers k with | .cloning => False | _ => True)

/-- a step of worker `i` -/
inductive Move (J : Job T Q A E) (i : Nat) : State T A E → State T A E → Prop
  /-- `src/ranker.cc:407-411`: another one has failed -/
  | leave {s} : Free J s → s.workers i = .begin → s.stop = true → Move J i s { s with workers := set s.workers i .done }
  | clone {s} : Free J s → s.workers i = .begin → s.stop = false → Move J i s { s with workers := set s.workers i .cloning }
  /-- `src/ranker.cc:411-416` -/
  | cloned {s} : s.workers i = .cloning → J.clones i none → Move J i s { s with workers := set s.workers i .cloned }
  | notCloned {s e} : s.workers i = .cloning → J.clones i (some e) → Move J i s { s with workers := set s.workers i (.failing e) }
  /-- `src/ranker.cc:417-438` -/
  | prepared {s} : s.workers i = .cloned → J.prepares i none → Move J i s { s with workers := set s.workers i (.at i) }
  | notPrepared {s e} : s.workers i = .cloned → J.prepares i (some e) → Move J i s { s with workers := set s.workers i (.failing e) }
  /-- `src/ranker.cc:395-401` -/
  | fail {s e} : s.workers i = .failing e → s.stop = false →
      Move J i s { s with stop := true, error := some e, workers := set s.workers i .done }
  | failToo {s e} : s.workers i = .failing e → s.stop = true → Move J i s { s with workers := set s.workers i .done }
  /-- `src/ranker.cc:440`: the end of the loop -/
  | finish {s j} : s.workers i = .at j → J.work.length ≤ j → Move J i s { s with workers := set s.workers i .done }
  /-- `src/ranker.cc:441-442` -/
  | halt {s j} : s.workers i = .at j → j < J.work.length → s.stop = true → Move J i s { s with workers := set s.workers i .done }
  | solve {s j} : s.workers i = .at j → j < J.work.length → s.stop = false →
      Move J i s { s with workers := set s.workers i (.solving j) }
  /-- `src/ranker.cc:443-460` -/
  | give {s j topic query} : s.workers i = .solving j → J.work[j]? = some (topic, query) → s.stop = false →
      Move J i s { s with results := store s.results topic (J.answer i query), workers := set s.workers i (.at (j + J.threads)) }
  | drop {s j} : s.workers i = .solving j → s.stop = true → Move J i s { s with workers := set s.workers i .done }

/-- a step of any worker -/
def Step (J : Job T Q A E) (s s' : State T A E) : Prop := ∃ i, i < J.threads ∧ Move J i s s'

/-- `src/ranker.cc:375-393`: at first -/
def begins : State T A E := ⟨false, none, fun _ => none, fun _ => .begin⟩

inductive Reach (J : Job T Q A E) : State T A E → Prop
  | start : Reach J begins
  | step {s s'} : Reach J s → Step J s s' → Reach J s'

/-- all threads are joined -/
def Final (J : Job T Q A E) (s : State T A E) : Prop := ∀ i, i < J.threads → s.workers i = .done

/-- `src/ranker.cc:379-380` -/
def threadsFor (hardware desired topics : Nat) : Nat := min (allowedThreads hardware desired) topics

/-- what `trec` returns, what is in `results`, and the error; `before` is what was in `results` -/
inductive Returns (J : Job T Q A E) (before : Results T A) : Bool → Results T A → Option E → Prop
  | nothing : J.work = [] → Returns J before true before none
  | ran {s} : J.work ≠ [] → Reach J s → Final J s → Returns J before (!s.stop) s.results s.error

end

/-- `src/ranker.cc:447-452`: the identifiers of the results; `none`: what the hopper does is undefined -/
def identify (H : Obj) : List (Int × Int) → H.σ → Option (List Ann × H.σ)
  | [], st => some ([], st)
  | (cp, cq) :: cs, st => match H.tau cp st with
    | none => none
    | some (a, st) => match identify H cs st with
      | none => none
      | some (as, st) => some (if a.q ≤ cq then a :: as else as, st)

end Verif.Trec
