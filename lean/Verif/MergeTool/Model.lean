import Verif.Names.Proof
/-
  Model of apps/merge-hazels.cc: merging static shards that are given by their names, and of what `Hazel::merge`
  (src/hazel.cc) decides for it.

  A path is the list of its bytes.  What is in a shard is a list (of transactions, say); that merging shards puts what they
  have one after the other is the subject of C25 and C26, and so are failures and interruptions while the merged shard is
  being written.  The checkpoint files beside a shard are left out.
-/
namespace Verif.MergeTool
open Verif.Names

abbrev Path := List Char

/-- a static shard: its sequence numbers if it has some (`hazel_sequence_range` hazel.cc 1669-1700 accepts no others than
0 ≤ start ≤ end < 2^63), its DNA up to these and the parameters (`normalize_dna_for_activated_hazel_merge` 1651-1667), whether
its text is not wrapped, the parameters in its DNA, and what is in it -/
structure Shard (α : Type) where
  range : Option (Nat × Nat)
  dna : Nat
  plain : Bool
  params : Option Nat
  items : List α
  deriving DecidableEq

/-- what is under a path: a shard, or something that is none -/
inductive File (α : Type)
  | shard (s : Shard α)
  | other
  deriving DecidableEq

abbrev Disk (α : Type) := Path → Option (File α)

/-- `maxfinity` -/
def top : Nat := 9223372036854775807

/-- merge-hazels.cc 24-26 `hazel_name` (with `seq2str` 16-22) -/
def hazelName (lo hi : Nat) : Path := shardName ['h', 'a', 'z', 'e', 'l'] lo hi

/-- merge-hazels.cc 28-33 `sibling_path`: up to the last slash, and the name -/
def sibling (input name : Path) : Path := (input.reverse.dropWhile (· != '/')).reverse ++ name

/-- merge-hazels.cc 47-66: the shards, if all are shards -/
def openAll {α : Type} (disk : Disk α) : List Path → Option (List (Shard α))
  | [] => some []
  | p :: ps =>
    match disk p with
    | some (.shard s) =>
      match openAll disk ps with
      | some ss => some (s :: ss)
      | none => none
    | _ => none

/-- merge-hazels.cc 68-93, after the first shard: the end of the last range (`get_sequence` hazel.cc 2210-2213, which gives
-1 for a shard without numbers: 2122-2126) -/
def follow {α : Type} : Nat → List (Shard α) → Option Nat
  | e, [] => some e
  | e, s :: ss =>
    match s.range with
    | none => none
    | some (a, b) => if e = top ∨ a ≠ e + 1 then none else follow b ss

/-- merge-hazels.cc 68-93 -/
def rangeOf {α : Type} : List (Shard α) → Option (Nat × Nat)
  | [] => none
  | s :: ss =>
    match s.range with
    | none => none
    | some (a, b) => (follow b ss).map fun e => (a, e)

/-- hazel.cc 1944-2014: the checks of `Hazel::merge` other than those of the ranges, which the program has done before -/
def compatible {α : Type} : List (Shard α) → Bool
  | [] => false
  | s :: ss => s.plain && ss.all fun t => t.plain && t.dna == s.dna

/-- hazel.cc 1702-1733 (`merged_activated_hazel_dna`) and 2018-2087: the merged shard, with the DNA of the first, the parameters
of the last and what all have, in turn -/
def merged {α : Type} (ss : List (Shard α)) (lo hi : Nat) : Shard α :=
  ⟨some (lo, hi), (ss.head?.map (·.dna)).getD 0, true, ss.getLast?.bind (·.params), ss.flatMap (·.items)⟩

/-- merge-hazels.cc 36-106 `main` with `Hazel::merge` hazel.cc 1911-2087: whether it ends with 0, and the files -/
def main {α : Type} (args : List Path) (disk : Disk α) : Bool × Disk α :=
  if args = [['-', '-', 'h', 'e', 'l', 'p']] then (true, disk)
  else if args.length < 2 then (false, disk)
  else
    match openAll disk args with
    | none => (false, disk)
    | some ss =>
      match rangeOf ss with
      | none => (false, disk)
      | some (lo, hi) =>
        let out := sibling (args.headD []) (hazelName lo hi)
        match disk out with
        | some (.shard _) => (true, disk)
        | some .other => (false, disk)
        | none =>
          if compatible ss then (true, fun p => if p = out then some (.shard (merged ss lo hi)) else disk p)
          else (false, disk)

/-! ### specification -/

/-- the ranges follow each other, from the first to the last number -/
inductive Complete : Nat → Nat → List (Nat × Nat) → Prop
  | one {a b} : Complete a b [(a, b)]
  | more {a b c rs} : Complete (b + 1) c rs → Complete a c ((a, b) :: rs)

/-- the paths have these shards -/
inductive Holds {α : Type} (disk : Disk α) : List Path → List (Shard α) → Prop
  | nil : Holds disk [] []
  | cons {p ps s ss} : disk p = some (.shard s) → Holds disk ps ss → Holds disk (p :: ps) (s :: ss)

/-- what the program that reads shards makes sure of -/
def Sound {α : Type} (disk : Disk α) : Prop := ∀ p s, disk p = some (.shard s) → ∀ a b, s.range = some (a, b) → a ≤ b ∧ b ≤ top

/-- the shards can be in one index -/
def Alike {α : Type} (ss : List (Shard α)) : Prop := (∀ s ∈ ss, s.plain = true) ∧ ∀ s ∈ ss, ∀ t ∈ ss, s.dna = t.dna

/-- the directory of a path and a name in it -/
def InDir (dir name path : Path) : Prop := path = dir ++ name ∧ '/' ∉ name ∧ (dir = [] ∨ dir.getLast? = some '/')

end Verif.MergeTool
