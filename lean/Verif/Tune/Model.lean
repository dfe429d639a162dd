import Verif.RankTool.Model
import Verif.Eval.Mean
/-
  Model of apps/parameters.cc: parameters of a pipeline are drawn at random and measured, again and again, and the best are listed.

  Numbers are exact.  What a pipeline gives for a query, with its parameters, and how this is measured are the subject of C58 to
  C62: here they are a function from topics to parameters and measures, another one for each round.
-/
namespace Verif.Tune
open Verif.Eval

/-! ### threads -/

/-- parameters.cc 212-240: where a worker is -/
inductive Worker (τ : Type)
  | idle
  | busy (topic : τ)
  | done
  deriving DecidableEq

/-- what the workers of a round share: `workq`, and the topics in the order in which they were measured -/
structure Pool (τ : Type) where
  queue : List τ
  workers : List (Worker τ)
  finished : List τ
  deriving DecidableEq

/-- parameters.cc 216-237: a step of the worker `i`; what is done between `lock` and `unlock` is one step (216-225 or 216-219, and 228-237) -/
def step {τ : Type} (s : Pool τ) (i : Nat) : Pool τ :=
  match s.workers[i]? with
  | some .idle =>
    match s.queue with
    | [] => { s with workers := s.workers.set i .done }
    | t :: q => { s with queue := q, workers := s.workers.set i (.busy t) }
  | some (.busy t) => { s with workers := s.workers.set i .idle, finished := s.finished ++ [t] }
  | _ => s

/-- parameters.cc 208-211, 242-247: a round with a number of threads, in the order that `schedule` gives -/
def pool {τ : Type} (topics : List τ) (threads : Nat) (schedule : List Nat) : Pool τ :=
  schedule.foldl step ⟨topics, List.replicate threads .idle, []⟩

/-! ### rounds -/

/-- parameters.cc 30-39; the measures of a topic have no entry `n`, those that are means have one -/
structure Trial (P κ : Type) where
  parameters : P
  metrics : Means κ

section
variable {τ P κ : Type} [DecidableEq τ] [DecidableEq κ]

/-- parameters.cc 232-235, for the topics in the order in which they were measured: `trials` -/
def record (result : τ → P × List (κ × Rat)) (finished : List τ) (trials : τ → List (Trial P κ)) : τ → List (Trial P κ) :=
  finished.foldl (fun tr t x => if x = t then tr x ++ [⟨(result t).1, ((result t).2, none)⟩] else tr x) trials

/-- parameters.cc 207, 236, 266: the entry of `runs` (without its parameters); nothing when it is undefined -/
def roundMeans (result : τ → P × List (κ × Rat)) (finished : List τ) : Option (Means κ) := meanAll (finished.map fun t => (result t).2) ([], none)

/-- parameters.cc 209, 232, 266: the parameters of the entry of `runs` -/
def roundParameters (result : τ → P × List (κ × Rat)) (finished : List τ) : Option P := finished.getLast?.map fun t => (result t).1

/-- parameters.cc 200-270: `trials` after all rounds -/
def allTrials : List ((τ → P × List (κ × Rat)) × List τ) → (τ → List (Trial P κ)) → τ → List (Trial P κ)
  | [], trials => trials
  | r :: rs, trials => allTrials rs (record r.1 r.2 trials)

/-- `metrics.find(name)`, `metrics.at(name)` of a map in which `n` is an entry; `none` is the name `n` -/
def lookup (m : Means κ) : Option κ → Option Rat
  | none => m.2
  | some k => metric m.1 k

/-- parameters.cc 46-50: the loop; nothing when there is an exception -/
def bestLoop (target : Option κ) : Trial P κ → List (Trial P κ) → Option (Trial P κ)
  | best, [] => some best
  | best, t :: ts =>
    match lookup t.metrics target with
    | none => none
    | some v => bestLoop target (if v > (lookup best.metrics target).getD 0 then t else best) ts

/-- parameters.cc 43-54: the means of the best trials of the topics, in turn; nothing when there is an exception or a topic has no trial (45) -/
def magical (target : Option κ) (trials : τ → List (Trial P κ)) : List τ → Means κ → Option (Means κ)
  | [], m => some m
  | t :: ts, m =>
    match trials t with
    | [] => none
    | first :: rest =>
      match bestLoop target first rest with
      | none => none
      | some b =>
        match mean b.metrics.1 m with
        | none => none
        | some m => magical target trials ts m

/-- parameters.cc 74-79, 92-97: the means of the trial `j` for some topics -/
def current (trials : τ → List (Trial P κ)) (selected : List τ) (j : Nat) : Option (Means κ) :=
  match selected with
  | [] => none
  | t :: ts =>
    match (trials t)[j]? with
    | none => none
    | some x => meanAll (ts.map fun t => ((trials t)[j]?.map (·.metrics.1)).getD []) x.metrics

/-- parameters.cc 86-101: the samples in turn -/
def cumulate (trials : τ → List (Trial P κ)) (j : Nat) : List (List τ) → Means κ → Option (Means κ)
  | [], m => some m
  | s :: ss, m =>
    match current trials s j with
    | none => none
    | some c =>
      match mean c.1 m with
      | none => none
      | some m => cumulate trials j ss m

/-- parameters.cc 68-101: what `bootstrap` sorts the trial `j` by, with the samples that it draws -/
def bootstrap (trials : τ → List (Trial P κ)) (topics : List τ) (samples : List (List τ)) (j : Nat) : Option (Means κ) :=
  match current trials topics j with
  | none => none
  | some c =>
    match mean c.1 ([], none) with
    | none => none
    | some m => cumulate trials j samples m

/-- parameters.cc 261-265: the metric that was asked for is accepted -/
def accepted (m : Means κ) (target : Option κ) : Bool := (lookup m target).isSome

end

/-! ### queries -/

abbrev Text := List Char

/-- parameters.cc 167-191: the queries so far and the other lines; `judged` are the topics in the judgements.  Nothing when the file is
refused. -/
def readTopics (judged : Text → Bool) : List (Text × Text) → List Text → Option (List (Text × Text))
  | qs, [] => some qs
  | qs, l :: ls =>
    match RankTool.splitQuery l with
    | none => none
    | some x => if !judged x.1 || qs.any (fun q => q.1 == x.1) then none else readTopics judged (qs ++ [x]) ls

/-- parameters.cc 166-195.  (`queries` is a map, so that the topics are taken in order of their names; here they are as in the file.) -/
def topicsOf (judged : Text → Bool) (ls : List Text) : Option (List (Text × Text)) :=
  match readTopics judged [] ls with
  | none => none
  | some qs => if qs.isEmpty then none else some qs

/-! ### specification -/

/-- the arithmetic mean -/
def average (l : List Rat) : Rat := l.sum / ((l.length : Nat) : Rat)

/-- a list in the order of `std::sort` by falling values (parameters.cc 272-275): any of those that it may be -/
def SortedBy {α : Type} (v : α → Rat) (l sorted : List α) : Prop := sorted.Perm l ∧ sorted.Pairwise fun a b => v b ≤ v a

end Verif.Tune
