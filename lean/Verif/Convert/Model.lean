/-
Model of `apps/fiver2hazel.cc`: the shards of a burrow are converted to static shards, and these are merged into one.

A directory is the list of its shards; simplified in that one kind and one range have one name (Verif/Names has the parsers).  What is
done to the directory is a list of operations, each of them one step, so that the program may be killed between any two, and one
that fails is a program that stops there.
-/
import Verif.Txn.Survey
namespace Verif.Convert
open Verif.Txn

/-- A static shard is written, which appears under its name when it is complete (`Fiver::hazel`, `Hazel::merge`), or is removed. -/
inductive FileOp | create (f : FName) | remove (f : FName)
  deriving DecidableEq

def FileOp.apply (dir : List FName) : FileOp → List FName
  | .create f => if f ∈ dir then dir else dir ++ [f]
  | .remove f => dir.filter (· ≠ f)

def after (dir : List FName) (ops : List FileOp) : List FName := ops.foldl FileOp.apply dir

/-- `working->ls(…)` and `parse_shard_name`, fiver2hazel.cc 76-84, 108-114 -/
def ofKind (k : FKind) (dir : List FName) : List FName := dir.filter fun f => f.kind = k

/-- the loop of `living_fivers` fiver2hazel.cc 91-101; `living` is kept in reverse -/
def livingLoop : List FName → List FName → Option (List FName)
  | [], living => some living.reverse
  | s :: l, [] => livingLoop l [s]
  | s :: l, b :: living =>
    if b.hi < s.lo then livingLoop l (s :: b :: living)
    else if s.hi ≤ b.hi then livingLoop l (b :: living)
    else none

/-- `living_fivers` fiver2hazel.cc 74-103; `none` is an error -/
def livingFivers (dir : List FName) : Option (List FName) := livingLoop (sortNames before (ofKind .fiver dir)) []

/-- the order of `hazel_files` fiver2hazel.cc 115-118: by start, shortest first -/
def shorter (a b : FName) : Bool := a.lo < b.lo || (a.lo == b.lo && a.hi ≤ b.hi)

/-- `hazel_files` fiver2hazel.cc 105-120 -/
def hazelFiles (dir : List FName) : List FName := sortNames shorter (ofKind .hazel dir)

/-- the inner loop of `covered_by_other_hazels` fiver2hazel.cc 139-149: `best_end`, if `found` -/
def longest (c : FName) (next : Nat) : List FName → Option Nat → Option Nat
  | [], best => best
  | h :: l, best =>
    if h = c ∨ h.lo ≠ next ∨ h.hi > c.hi then longest c next l best
    else match best with
      | none => longest c next l (some h.hi)
      | some e => longest c next l (if h.hi > e then some h.hi else some e)

/-- the loop of `covered_by_other_hazels` fiver2hazel.cc 138-157; `next` grows each time, so that `fuel` is enough -/
def coveredLoop (hs : List FName) (c : FName) : Nat → Nat → Nat → Bool
  | 0, _, _ => false
  | fuel + 1, next, pieces =>
    if next ≤ c.hi then
      match longest c next hs none with
      | none => false
      | some e => if e = c.hi then decide (2 ≤ pieces + 1) else coveredLoop hs c fuel (e + 1) (pieces + 1)
    else false

/-- `covered_by_other_hazels` fiver2hazel.cc 134-158; the candidate is told from the others by its name instead of its place -/
def covered (hs : List FName) (c : FName) : Bool := coveredLoop hs c (c.hi + 1 - c.lo) c.lo 0

/-- `contiguous_hazels` fiver2hazel.cc 183-193 and the check of `Hazel::merge` (hazel.cc 1768-1782), which is the same -/
def contiguous : List FName → Bool
  | a :: b :: l => decide (a.hi + 1 = b.lo) && contiguous (b :: l)
  | _ => true

/-- the loop of `main` over the living fivers, fiver2hazel.cc 364-398; the static shards are those found before.
(`std::binary_search` in a sorted list finds what is in it.) -/
def conversions (hazels fivers : List FName) : List FileOp :=
  (fivers.filter fun f => !hazels.contains ⟨.hazel, f.lo, f.hi⟩).map fun f => .create ⟨.hazel, f.lo, f.hi⟩

/-- `main` fiver2hazel.cc 346-401: what it does, or that it fails before it does anything -/
def convertOps (dir : List FName) : Option (List FileOp) :=
  match livingFivers dir with
  | none => none
  | some [] => none
  | some fivers => some (conversions (hazelFiles dir) fivers)

/-- `main` fiver2hazel.cc 409-440, after `done`: `rest` is merged, and whether it succeeds -/
def finish (done : List FileOp) (rest : List FName) : List FileOp × Bool :=
  if !contiguous rest then (done, false)
  else match rest with
    | [] => (done, false)
    | [_] => (done, true)
    | a :: b :: l => (done ++ [.create ⟨.hazel, a.lo, ((b :: l).getLast (by simp)).hi⟩], true)

/-- `main` fiver2hazel.cc 404-441 with `remove_merged_hazels` 160-181: what it does, and whether it succeeds -/
def mergeOps (dir : List FName) : List FileOp × Bool :=
  let hs := hazelFiles dir
  finish ((hs.filter fun h => covered hs h).map FileOp.remove) (hs.filter fun h => !covered hs h)

/-- `main` fiver2hazel.cc 274-447, after the options and the components have been read -/
def main (convert merge : Bool) (dir : List FName) : List FileOp × Bool :=
  match (if convert then convertOps dir else some []) with
  | none => ([], false)
  | some ops =>
    if merge then
      let r := mergeOps (after dir ops)
      (ops ++ r.1, r.2)
    else (ops, true)

end Verif.Convert
