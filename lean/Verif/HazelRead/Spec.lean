import Verif.Hopper.Spec
/-
  What readers of a static shard should get (the specification of C66).
-/
namespace Verif.HazelRead

/-- an annotation: where it begins and ends, and its value -/
abbrev Ann := Int × Int × Int

/-- how the directory of a shard has a feature: one annotation of one token, kept in the directory itself, or so many in the postings -/
inductive Kept
  | single (p : Int)
  | stored (n : Nat)
deriving DecidableEq

/-- A shard: its directory, and what its postings decode to, if they do: a feature and annotations. -/
structure Shard where
  directory : Int → Option Kept
  postings : Int → Option (Int × List Ann)

/-- the annotations of a feature in a shard -/
def Shard.has (s : Shard) (f : Int) : List Ann :=
  match s.directory f with
  | none => []
  | some (.single p) => [(p, p, 0)]
  | some (.stored _) => match s.postings f with
    | none => []
    | some x => x.2

/-- the directory is right about the postings -/
def Shard.Sound (s : Shard) : Prop := ∀ f n, s.directory f = some (.stored n) → ∃ l, s.postings f = some (f, l) ∧ l.length = n

/-- what a call gives -/
inductive Ans
  /-- a null pointer -/
  | null
  | list (l : List Ann)
deriving DecidableEq

/-- the two ways to ask: `Idx::hopper` and `Owsla::posting` -/
inductive Kind | hopper | posting
deriving DecidableEq

/-- what a call should give -/
def Shard.answer (s : Shard) (k : Kind) (f : Int) : Ans :=
  match k, s.directory f with
  | .posting, none => .null
  | _, _ => .list (s.has f)

end Verif.HazelRead
